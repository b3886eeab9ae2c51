import Verif.Model.Printer
/-
The command line program. Source: /repo/src/main.rs

The operating system is reduced to what the program observes: what a path given as an argument
denotes, what reading a file yields, how much can be written to it, and the bytes of the files.
Two paths may denote the same file.  Effects are recorded in a log in the order they happen, so
that the state of the disk after a crash at any moment can be expressed.
-/
namespace Mofmt

/-- What a path denotes when it is followed by `is_dir` and `read_dir` (main.rs:54-58, 105-117). -/
inductive DirTree where
  /-- not a directory -/
  | leaf
  /-- a directory whose entries cannot be listed -/
  | locked
  /-- a directory: names and what they denote, in the order `read_dir` yields them -/
  | dir (entries : List (Text × DirTree))
  deriving Repr

/-- What happens when a file is written. -/
inductive Sink where
  /-- it cannot be opened for writing -/
  | locked
  /-- no more than `n` bytes can be written (the device is full, say) -/
  | full (n : Nat)
  | free
  deriving DecidableEq, Repr

/-- The fixed part of the environment. -/
structure World where
  /-- what a path argument denotes -/
  tree : Text → DirTree
  /-- the file a path leads to, if any -/
  inode : Text → Option Nat
  /-- what happens when the file is written -/
  sink : Nat → Sink
  /-- what the operating system says if the file behind a path cannot be read -/
  complaint : Text → Text
  /-- `"\n"` or `"\r\n"`: main.rs:19 -/
  eol : Text

abbrev Bytes := List UInt8

/-- UTF-8: the bytes of a text -/
def encode (t : Text) : Bytes := t.flatMap String.utf8EncodeChar

/-- UTF-8: the text of the bytes, if there is one (the check in `fs::read_to_string`) -/
def decode (b : Bytes) : Option Text := b.toByteArray.utf8Decode?.map Array.toList

/-- Contents of the files; `none` when the file cannot be read. -/
abbrev Disk := Nat → Option Bytes

/-- What the program does to the outside world. -/
inductive Op where
  /-- a line written to stdout -/
  | out (line : Text)
  /-- a line written to stderr -/
  | err (line : Text)
  /-- `File::create`, the first half of `fs::write`: the file becomes empty -/
  | truncate (f : Nat)
  /-- `write_all`, the second half of `fs::write` -/
  | append (f : Nat) (b : Bytes)
  deriving DecidableEq, Repr

/-- Effect of an operation on the disk. -/
def Op.apply : Op → Disk → Disk
  | .out _, d => d
  | .err _, d => d
  | .truncate f, d => fun g => if g = f then some [] else d g
  | .append f b, d => fun g => if g = f then (d g).map (· ++ b) else d g

/-- How a run ends. -/
inductive End where
  /-- `exit(code)` -/
  | exit (code : Nat)
  /-- a panic; the process ends with code 101 -/
  | panic (p : Panic)
  /-- the model's fuel ran out (proved impossible) -/
  | fuel
  deriving DecidableEq, Repr

/-- The exit code the shell sees. -/
def End.code : End → Option Nat
  | .exit c => some c
  | .panic _ => some 101
  | .fuel => none

/-- State while files are being processed. -/
structure Proc where
  disk : Disk
  /-- operations so far, oldest first -/
  log : List Op
  /-- main.rs:48 `code` -/
  code : Nat

def Proc.emit (o : Op) (s : Proc) : Proc := { s with disk := o.apply s.disk, log := s.log ++ [o] }

/-- Components of a path, as `Path::components` splits it; `.` and empty ones are skipped. -/
def splitPath : Text → Text → List Text
  | [], acc => [acc.reverse]
  | c :: cs, acc => if c = '/' then acc.reverse :: splitPath cs [] else splitPath cs (c :: acc)

/-- `Path::file_name` -/
def fileName (p : Text) : Option Text :=
  match ((splitPath p []).filter (fun c => !(c == [] || c == c!"."))).getLast? with
  | none => none
  | some n => if n = c!".." then none else some n

/-- The text after the last dot, if there is one and it is not the first character. -/
def afterDot : Text → Bool → Option Text
  | [], _ => none
  | c :: cs, first =>
    match afterDot cs false with
    | some e => some e
    | none => if c = '.' ∧ first = false then some cs else none

/-- `Path::extension` -/
def extension (p : Text) : Option Text := (fileName p).bind (afterDot · true)

/-- main.rs:124-129 `is_modelica` -/
def isModelica (p : Text) : Bool := extension p == some c!"mo"

/-- `Path::join` of a directory and a name -/
def joinPath (d n : Text) : Text := if d.getLast? = some '/' then d ++ n else d ++ '/' :: n

mutual
/-- main.rs:103-121 `get_files_from_dir` for a path and what it denotes -/
def filesFrom (p : Text) : DirTree → Res (List Text)
  | .leaf => .ok (if isModelica p then [p] else [])
  | .locked => .panic .io
  | .dir es => filesFromEntries p es
/-- main.rs:107-118, the loop over the entries -/
def filesFromEntries (p : Text) : List (Text × DirTree) → Res (List Text)
  | [] => .ok []
  | (n, t) :: es => (filesFrom (joinPath p n) t).bind fun fs =>
      (filesFromEntries p es).bind fun gs => .ok (fs ++ gs)
end

/-- main.rs:53-59, the files denoted by one argument; a plain file is taken whatever its name -/
def argFiles (w : World) (a : Text) : Res (List Text) :=
  match w.tree a with
  | .leaf => .ok [a]
  | t => filesFrom a t

/-- main.rs:51-60, the files denoted by the arguments -/
def collect (w : World) : List Text → Res (List Text)
  | [] => .ok []
  | a :: as => (argFiles w a).bind fun fs => (collect w as).bind fun gs => .ok (fs ++ gs)

/-- main.rs:132-140 `read_file`: the text of the file, or the error -/
def readFile (w : World) (s : Proc) (p : Text) : Except Text Text :=
  if isModelica p then
    match (w.inode p).bind s.disk with
    | none => .error (w.complaint p)
    | some b => match decode b with
      | none => .error c!"stream did not contain valid UTF-8"
      | some t => .ok t
  else .error (p ++ c!" is not a Modelica file")

/-- main.rs:143-145 `write_file`: `fs::write` opens the file, which empties it, and writes the bytes -/
def writeFile (w : World) (f : Nat) (b : Bytes) (s : Proc) : Proc × Option End :=
  match w.sink f with
  | .locked => (s, some (.panic .io))
  | .full n =>
    if b.length ≤ n then ((s.emit (.truncate f)).emit (.append f b), none)
    else ((s.emit (.truncate f)).emit (.append f (b.take n)), some (.panic .io))
  | .free => ((s.emit (.truncate f)).emit (.append f b), none)

/-- `errors.join("\n")` -/
def joinLines : List Text → Text
  | [] => []
  | [l] => l
  | l :: ls => l ++ '\n' :: joinLines ls

/-- lib.rs:9-13 and main.rs:80: the output for a file without syntax errors -/
def output (w : World) (q : Parsed) : Res Text :=
  (prettyPrint w.eol q.tokens q.comments q.events).bind fun t => .ok (t ++ w.eol)

/-- main.rs:61-98, processing of one file: the state afterwards, or how the run ended in it -/
def formatOne (w : World) (check : Bool) (p : Text) (s : Proc) : Proc × Option End :=
  match readFile w s p with
  | .error m => ({ s.emit (.err (p ++ c!": error: " ++ m)) with code := 1 }, none)
  | .ok src =>
    match parse p src .StoredDefinition with
    | .panic e => (s, some (.panic e))
    | .fuel => (s, some .fuel)
    | .ok q =>
      if q.errors.isEmpty then
        match output w q with
        | .panic e => (s, some (.panic e))
        | .fuel => (s, some .fuel)
        | .ok out =>
          if check then
            if out = src then (s.emit (.out (p ++ c!": check passed")), none)
            else ({ s.emit (.out (p ++ c!": check failed")) with code := 1 }, none)
          else
            match w.inode p with
            | none => (s, some (.panic .io))
            | some f => writeFile w f (encode out) s
      else
        ({ s.emit (.out (c!"Syntax errors detected:\n" ++ joinLines q.errors)) with code := 1 }, none)

/-- main.rs:61-98, the loop over the files -/
def formatAll (w : World) (check : Bool) : List Text → Proc → Proc × End
  | [], s => (s, .exit s.code)
  | p :: ps, s =>
    match formatOne w check p s with
    | (s, none) => formatAll w check ps s
    | (s, some e) => (s, e)

/-- main.rs:47-100 `format_files` -/
def formatFiles (w : World) (check : Bool) (args : List Text) (d : Disk) : Proc × End :=
  let s : Proc := { disk := d, log := [], code := 0 }
  match collect w args with
  | .ok fs => formatAll w check fs s
  | .panic e => (s, .panic e)
  | .fuel => (s, .fuel)

/-- main.rs:6 -/
def version : Text := c!"0.6.0"

/-- main.rs:8-17 -/
def help : Text := c!"\nmofmt: Modelica code formatter\n\nUsage: mofmt [OPTIONS] <PATHS>\n\nOptions:\n" ++
  c!"-h, --help: display this message and exit\n" ++
  c!"-v, --version: display a version number and exit\n" ++
  c!"--check: run mofmt in check mode (without modifying the file)\n"

/-- main.rs:21-44 `main`; `args` are the arguments without the program name. -/
def main (w : World) (args : List Text) (d : Disk) : Proc × End :=
  let s : Proc := { disk := d, log := [], code := 0 }
  match args with
  | [] => (s.emit (.err (c!"Missing PATHS arguments.\n" ++ help)), .exit 1)
  | a :: rest =>
    if a = c!"-h" ∨ a = c!"--help" then (s.emit (.out help), .exit 0)
    else if a = c!"-v" ∨ a = c!"--version" then (s.emit (.out (c!"mofmt, " ++ version)), .exit 0)
    else if a = c!"--check" then
      if rest = [] then (s.emit (.err (c!"Missing PATHS arguments.\n" ++ help)), .exit 1)
      else formatFiles w true rest d
    else if a.head? = some '-' then
      (s.emit (.err (c!"Unrecognized option: '" ++ a ++ c!"'.\n" ++ help)), .exit 1)
    else formatFiles w false (a :: rest) d

end Mofmt
