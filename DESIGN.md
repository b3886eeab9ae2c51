# Design

Formal model (Lean 4) of `mofmt`, a Modelica formatter written in Rust (/repo), and machine-checked proofs of the
properties listed in `properties.jsonl`.  `MANIFEST.json` maps properties to theorems, `seeded/LOG.jsonl` records the
mutation tests.

## 1. Trusted base

* Lean's kernel (Lean 4.33.0).  Every theorem is checked by it; no `sorry`, no `admit`, no own axioms, no
  `native_decide`, no `bv_decide`.  `decide`, `decide +kernel` and `decide_cbv` produce ordinary proof terms.
* Axioms: at most `propext`, `Classical.choice`, `Quot.sound`; section 7 lists them per theorem.
* The transcription of /repo into `lean/Verif/Model/*`: function by function, each definition cites file and lines.
  This is the only part a reader has to compare with the Rust code.  Three aids support the comparison; they are
  tests, not proofs:
  * `tools/transcribe.py` translates the grammar functions of parsing.rs as text into `Cmd` and compares the result with
    `Model/Grammar` (87 functions, no difference; `name` is compared by hand because of its `break`).
  * `tools/transcribe_fmt.py` does the same for formatting.rs and `Model/FormatterBodies`, once per token kind and per
    subtree kind (87 functions, no difference).
  * `lean/Verif/Samples.lean` runs the tests of /repo on the model (`#guard`): the golden sample
    `code-input.mo` gives exactly `code-output.mo`, which is stable, and all unit tests of lexer, parser and tree hold.
* The specifications: `lean/Verif/Spec/*` and the statements in `lean/Verif/Props/*`.
  `lean/Verif/Proofs/*` need not be read.
* Mathlib is not used.

## 2. What is modelled

| model | source | contents |
|---|---|---|
| `Model/Token` | parser/tokens.rs, syntax.rs, events.rs | token kinds, syntax kinds, positions, tokens, events |
| `Model/Lexer` | parser/lexing.rs | the character state machine, byte offsets exactly as in the code (`current.pos = i + 1`) |
| `Model/Parser` | parser/parsing.rs:1-251 | parser state and primitives (`nth` with its counter of lives, `advance`, `expect`, `consume`, `error`, `exit`, ...), interpreter for grammar functions, `parse` |
| `Model/Grammar` | parser/parsing.rs:253-1546 | all 87 grammar functions |
| `Model/Tree` | parser/tree.rs | `build_tree` with its assertions, `start`, `end`, `is_multiline`, `contains`, `len` |
| `Model/Formatter` | formatter/formatting.rs:1-216, markers.rs | formatter state, `break_or_space`, `handle_break`, `handle_token`, interpreter for formatting functions |
| `Model/FormatterBodies` | formatter/formatting.rs:218-2197 | all formatting functions and the dispatch |
| `Model/Printer` | formatter/printing.rs, lib.rs | `print`, `pretty_print`, `lex`/`parse` entry points |
| `Model/Crash` | parser/parsing.rs:177-197 | the interpreter of `Model/Parser` once more, keeping the state at a panic, and the text of the panic of a stuck parser (`blowup`) |
| `Model/Cli` | main.rs | argument handling, directory traversal, reading, checking, writing, messages, exit code |

Modelling decisions:

* Text is `List Char` (Unicode scalar values).  Byte offsets are kept separately, so slicing at a place that is not a
  character boundary is an explicit panic.
* Every way to abort is an explicit result `Res.panic` (`unwrap`, `unreachable!`, `assert!`, slicing, unsigned
  underflow, the parser's "stuck" counter, I/O failure).  Non-termination of the interpreters is an explicit result
  `Res.fuel`; C18 and C20 prove that it does not occur.
* The grammar functions and the formatting functions are written in two small command languages (`Cmd`, `FCmd`) and
  executed by one interpreter each.  The translation is one Lean definition per Rust function in source order.  A
  command language (instead of Lean functions) makes it possible to prove facts about *all* functions by induction
  over commands and by verified abstract interpretation.
* Markers carry the whole token; the printer uses its text only.
* Maps and vectors are lists.  Numbers are unbounded: `u32`/`usize` overflow is not modelled (it needs files of more
  than 4 GB or 2^32 lines).
* The file system is a function from paths to files and from files to bytes, plus what a path denotes; effects are a
  log, so that "the disk after a crash at any moment" can be expressed.  Reading fails with the message of the
  operating system (a parameter), finds bytes that are not UTF-8, or yields the text (`encode`/`decode`, from the UTF-8
  functions of Lean's core library).  Writing is truncation followed by appending the bytes; it can fail at once or
  after any number of bytes.  Messages of the program are modelled word by word.

Not modelled:

* the end of the stack and of the memory. How deep the calls are is modelled (C78), but not how large their frames are, and that the
  program is killed if the stack overflows (by deep nesting, or by a long list of arguments);
* panics caused by a closed standard output or standard error; what a panic prints (other than the text of a stuck parser, C83);
* the operating system below file contents (permissions, links that change during the run, concurrent writers);
* the test helpers and the `tests` directory of /repo.

## 3. Organisation of the proofs

* **Lexer**: the state machine is refined to a pure scanner (`LexRun`, `LexSpec`); lexical classes (`Spec/Lexical`) and
  "a text of the class followed by an admissible character is munched exactly" (`LexClass`, `Relex`).  The scanner takes the longest token of the lexical classes (`Munch`), which makes
  the result of the lexer a function of how the text divides (`Spec/Lexemes`).
* **Parser**: induction over commands gives balanced events and exact consumption for *every* command
  (`ParserForest`, `ParserMore`, `Termination`); a translation of commands to regular expressions over child symbols
  gives conformance with the grammar for runs without errors (`ParserAbs`, `Conform`, `Regex`, `Spec/Grammar`).
  The converse, acceptance of every sentence, is a symbolic execution of each grammar function along the expression of
  its production with FIRST and FOLLOW sets and look-ahead budgets (`Accept`, `AcceptTable`, `AcceptRun`); `Viable` follows
  the run to the first message and `Early` compares runs on texts with a common beginning; `Opens` gives
  the exact set of accepted files.
* **Formatter**: an abstract interpreter for formatting functions over (previous token kind, pending white space,
  registers, derivative of the production) (`FmtAbs`), proved sound once (`FmtSound`, `FmtRun`); the finite check of
  its tables is evaluated by the kernel (`FmtFull`, `FmtFlat`).  The result is a *layout*: a decision (nothing,
  blank, line break) before every token (`Spec/Layout`).  `FmtRep` shows that markers and comments are what the
  layout says, `Segs`, `Groups`, `OutText` turn this into statements about the output text.
* **Second run**: the output is relexed and reparsed (`Relex`, `Roundtrip`, `Second`); traces of both runs are compared
  (`Trace`, `Steps`, `Arms`, `Track`, `Influence`, `Moves`, `Settle`).
* **Layout tables**: symbolic execution of the formatting functions against `Spec/Breaks`, `Spec/Indent` and `Spec/Whole`
  (`BreakTable`, `Levels`, `Depth`, `GapTable`, `GapExec`), lifted to all trees by induction (`BreakRun`, `LevelRun`,
  `GapRun`).  Consequences for lists: `ListRun`, `ListItems`.
* **Expressions on one line**: symbolic execution of the formatting functions against `Spec/OneLine` (`OneLine`,
  `OneLineRun`).
* **Command line**: induction over the list of files and the directory tree (`Cli`, `CliRun`).

All theorems are quantified over all inputs; finite checks are used only for finite tables (token kinds, syntax kinds,
states of the abstract interpreter) from which the unbounded statements follow by proved soundness theorems.

## 4. Properties that are false of the code

Each is refuted by a concrete witness (theorem `Cxx_false...`); the true part is proved as `..._partial`.

* **C01, C02, C04, C07**: a carriage return without line feed ends a line comment but not the line.
  `model A\nReal x; // a\r/* b\n*/\nend A;\n` is formatted to a text in which a token is swallowed; the parser panics on
  it.  True for every source whose line comments end their lines, in particular for every source without lone
  carriage returns.
* **C06**: comments are lost: before the first token of a file that does not begin with `within` or `final`, after the
  last token, and wherever the output has no line break.
* **C09**: a leading `final` is preceded by an empty line at the start of the file.
* **C11**: wrapping an operator in the left-hand side of an equation (`a\n + b = c;`) increases the indentation for the
  rest of the file (the result of `simple_expression` is discarded); the same for the outputs of a statement.
* **C12, C13**: `model A Real a "d", b; end A;`: the description moves to a new line, which makes the component list
  multi-line for the second run.  Similar: a description or constraining clause inside a modification on one line, and
  text behind a comment with line breaks.  The second output is always a fixed point.  Without comments that have
  something behind them, unsettled lists are the only cause (`C12_exact_partial`).
* **C18**: a line comment whose last character is not ASCII panics, as does an unexpected non-ASCII character directly
  before a token (`ą;`, byte order mark).  The condition is exact (`C18_panics_iff`).
* **C21**: the parser panics on `model`, `final` (assertion) and on `model A ) end A;` (stuck).
* **C33**: a file on which the parser panics aborts the run.
* **C34**: `fs::write` truncates first; a crash leaves a prefix of the new text.
* **C36**: `--check` is recognised only as the first argument.
* **C40**: `/*/` is accepted as a complete block comment.
* **C48**: a line break in the list of outputs `(a,\n b) := f(x)` is removed; the style guide promises to wrap at every item.
* **C50**: an equation starting with `end`, or directly in an equation section with `initial` (`initial() = b;`), is
  grammatical but refused: these words end the loop over the equations.  Everything else that is grammatical is accepted.
* **C49**: `type E = enumeration(a, b);` stays on one line; the style guide lists enumeration items under automatic wrapping.
* **C61**: at the end of the file, the message may ask for a token that does not repair the text (`type A = B[1,`).
* **C66**: `(, b) := g(x)` becomes `( , b) := g(x)`, with a blank behind the bracket and before the comma.
* **C68, C70, C71, C72, C73**: alignment, indentation of descriptions and locality of edits fail behind a wrapped left-hand
  side (C11).
* **C69**: `pretty_print` panics for an expression list with a comma at its end (`a,`), which `parse` accepts.
* **C78**: a flat list of `n` values in `{ }`, or of `n` arguments, needs `n` nested calls of the parser, of the formatter
  and of the function that frees the tree.  A long table of values therefore overflows the stack.
* **C82, C85**: swapping items and formatting them one by one fail behind a wrapped left-hand side (C11).
* **C88**: a lone carriage return (C01) makes two different programs have the same output (`C88_false`).
* **C93**: a byte order mark directly before a token or a comment makes the lexer panic, for every accepted file
  (`C93_mark_panics`); only with white space behind it the mark is reported.
* **C94**: a file of comments only, such as a licence, is replaced by a single line end (`C94_emptied`).

Further observations (true of the model, recorded in comments or theorems): `1e` is accepted as a real number;
an equation accepts any simple expression without right-hand side; entry points other than `StoredDefinition` can make
`build_tree` panic on left-over tokens; an empty or comment-only file is formatted to a single line end; a file called
`.mo` has no extension and is not Modelica; an empty file fails `--check`.

## 5. Conditions used by partial theorems

* `LineCommentsEnd` (Spec/Output): every line comment is followed by comments on later lines only.
* `NoLoneCr` (Spec/Output): every carriage return is followed by a line feed; implies `LineCommentsEnd`
  (`C01_no_lone_cr`).
* `Steady` (Spec/Settled): the source layout conditions under which one run suffices.
* `Tree.NoWrap` (Spec/Layout): no binary operator has its operands on different lines.
* `Tree.Opens` (Spec/Accept): no equation starts with `end`, none directly in an equation section with `initial`;
  holds of every tree the parser builds (C51).
## 6. Properties

| id | title | status | theorems | how |
|---|---|---|---|---|
| C01 | Formatting preserves every token | partial | `C01_tokens_preserved_partial`, `C01_no_lone_cr`, `C01_false` | layout of the output (C05, C38) + every adjacent pair of lexemes is separated or self-delimiting + maximal munch per class |
| C02 | Formatted output parses to the same syntax tree | partial | `C02_same_tree_partial`, `C02_false` | C01 + the parser depends on kinds only (C24) |
| C03 | Formatting an accepted file never panics | proved | `C03_formatting_succeeds`, `C03_formatted` | abstract interpretation of all formatting functions over all words of all productions |
| C04 | Comments are never invented, altered, duplicated or reordered | partial | `C04_comments_partial`, `C04_false` | groups of the output relexed (C01) |
| C05 | Exactly the comments at line breaks survive | proved | `C05_comments_at_breaks` | refinement of handle_break/handle_token to the layout specification |
| C06 | No comment is ever lost | partial | `C06_comments_kept_partial`, `C06_exact_partial`, `C06_exact_case`, `C06_false` | tables of productions that are always preceded by a break; `C06_exact_partial` (Props/Kept.lean): the comments read back from the output, by its own lexer, are those in front of a token that begins a line |
| C07 | A line comment is always terminated before the next token | partial | `C07_line_comments_partial`, `C07_false` | chain of lexemes in the relexed output |
| C08 | Whitespace of the output is in normal form | proved | `C08_white_space` | text of layout pieces |
| C09 | No trailing blanks, never two blank lines in a row | partial | `C09_no_trailing_blanks_partial`, `C09_false` | adjacent pieces of the layout |
| C10 | Indentation never underflows | proved | `C10_no_underflow` | abstract interpreter tracks the indentation lower bound |
| C11 | Indentation is balanced | partial | `C11_exact`, `C11_balanced_partial`, `C11_false`, `C11_case` | The property is false (`C11_false`). `C11_exact` says by how much: for every accepted file the number of indents is the number of dedents plus `Tree.leaks`, a count defined on the syntax tree alone (Spec/Indent.lean). It is proved by induction on the tree with an abstract interpretation of the formatting functions over their local flags (Proofs/Levels.lean), whose finite check is evaluated by the kernel for every production. `C11_balanced_partial` is the older consequence for files without wrapped operators. |
| C12 | Formatting is idempotent | partial | `C12_steady_partial`, `C12_output_steady`, `C12_twice_partial`, `C12_exact_partial`, `C12_exact_cases`, `C12_unsettled`, `C12_false`, `C12_false_comment` | second run compared with the first event by event (moved tokens), settledness of outputs; conversely, a list that is not settled has an item that the second run puts on another line (the layout of lists, C48) while equal outputs have the same line breaks |
| C13 | A freshly formatted file passes --check | partial | `C13_steady_partial`, `C13_twice_partial`, `C13_exact_partial`, `C13_false` | C12 at the level of the command line |
| C14 | Horizontal layout of the input is irrelevant | proved | `C14_streams`, `C14_horizontal` | relational induction over lexer-independent runs: only idx, kind, text and lines matter |
| C15 | Single-line expressions are put into one canonical form | proved | `C15_one_line`, `C15_canonical`, `C15_again` | symbolic execution of the expression functions over all words of their productions; decomposition of the trace of the file |
| C16 | Lexing is lossless | proved | `C16_lossless` | scanner specification |
| C17 | Token positions are exact | proved | `C17_positions` | scanner specification with positions |
| C18 | Lexing never panics | partial | `C18_lex_returns_partial`, `C18_false`, `C18_false_bom`, `C18_panics_iff` | invariant: offsets are character boundaries on ASCII texts; exactly which texts panic follows from the division of the text (C53) |
| C19 | Every token has the lexical form of its kind | proved | `C19_classes`, `C19_class_lexed` | one lexeme specification per kind |
| C20 | The parser always terminates | proved | `C20_parser_terminates`, `C20_events_terminates` | measure: tokens left and lives; depth bound |
| C21 | Syntax errors are reported, never a crash | partial | `C21_partial`, `C21_false_assert`, `C21_false_stuck` | all panics classified |
| C22 | Parser events describe the token list exactly | proved | `C22_events_describe_tokens` | induction over commands: events are forests |
| C23 | build_tree succeeds on parser output and loses nothing | proved | `C23_build_tree_lossless`, `C23_needs_stored_definition` | forest to tree |
| C24 | Parsing depends only on token kinds | proved | `C24_only_kinds` | relational induction over commands |
| C25 | Accepted files conform to the Modelica grammar | proved | `C25_accepted_conforms` | commands translated to regular expressions; language inclusion checked by derivatives |
| C26 | Error messages point at real tokens | proved | `C26_errors_located` | invariant on the error list |
| C27 | No error reported means no Error node | proved | `C27_error_node_reported` | induction over commands |
| C28 | Check mode never modifies a file | proved | `C28_check_never_writes` | induction over the run: no write in the log |
| C29 | Files with syntax errors are left untouched | proved | `C29_errors_untouched` | case analysis of one file, induction over the run |
| C30 | The exit code tells the truth | proved | `C30_exit_code`, `C30_panic_not_zero`, `C30_usage` | invariant on the exit code |
| C31 | Only Modelica files are read or written | proved | `C31_directory_listing`, `C31_only_modelica_written` | induction over directory trees |
| C32 | Format mode writes exactly the formatted text | proved | `C32_writes_formatted` | induction over the list of files |
| C33 | One bad file does not prevent the others from being processed | partial | `C33_partial`, `C33_false` | induction over the list of files |
| C34 | Crash safety of writing | partial | `C34_partial`, `C34_false` | prefixes of the effect log |
| C35 | A formatted file ends with its last semicolon and one line end | proved | `C35_end_of_file` | last decision of the layout |
| C36 | --check is honoured wherever it is given | partial | `C36_partial`, `C36_false` | argument handling |
| C37 | Mandatory line breaks | proved | `C37_new_lines` | tables: gap before the first token of a production |
| C38 | Spacing around punctuation and binary operators follows the style guide | proved | `C38_spacing` | tables: gap between token kinds |
| C39 | Every output of the lexer is in source order | proved | `C39_source_order` | scanner specification |
| C40 | Block comments end at their first terminator | partial | `C40_first_terminator_partial`, `C40_false` | scanner of block comments |
| C41 | Lexing does not depend on the file name | proved | `C41_name_irrelevant` | relational induction |
| C42 | Sections are set off by an empty line | proved | `C42_sections` | tables: gap before section keywords |
| C43 | When a run finishes | proved | `C43_run_finishes` | exact condition by induction over the list of files |
| C44 | Line breaks at binary operators are those of the source | proved | `C44_operators`, `C44_case` | run of the file decomposed at every child of every part of the tree (`Formatted.children`); events of an operator arm; grammar fact that an operand follows every operator |
| C45 | Automatic line breaks and empty lines | proved | `C45_breaks`, `C45_plain`, `C45_case` | partial evaluation of every arm under what is known of the token and the variables before it, checked against the table for all neighbours in all productions (`rows_first`, `rows_next`); `Breaks` from the layout specification of line breaks |
| C46 | The indentation of every line follows from the syntax tree | proved | `C46_lines`, `C46_breaks`, `C46_operators`, `C46_unique`, `C46_case`, `C46_case_breaks` | `Level` (Spec/Indent.lean) assigns a level to every part, by recursion from the root, with a table of increments. The formatting function of every production is run abstractly over its local flags, and a finite check (Proofs/Depth.lean, evaluated by the kernel for every production and every regular way through its grammar) shows that at every break, token and call the counter is the one of the table. `arm_depth` connects the check with the run at a child, `depthOK` is the induction on the tree. `C46_lines` covers all tokens; `C46_breaks` and `C46_operators` give the exact part for the breaks of C45 and C44; `C46_unique` shows that levels are unique. |
| C47 | The whole output is given by explicit layout tables | proved | `C47_layout`, `C47_total` | The formatting functions are executed abstractly: for every production, every place in the grammar and every combination of the facts, the arm of the formatting function must print the child once, with the arguments, indentation, blank or break of the tables (`gaps_ok`, checked by the kernel for all words of the grammar at once through `checkG`). `exec_sound` shows that a run follows the abstract execution; `arm_layout`, `loop_layout` and `layoutOK` lift this to all trees by induction; `C47_layout` connects it with the printed text. |
| C48 | Lists are wrapped consistently | partial | `C48_lists_partial`, `C48_nested_partial`, `C48_one_line`, `C48_rows`, `C48_false` | Spec/Lists.lean defines the items of a list by a recursive walk through the list productions. From C47 every part of the tree has its place in the layout (`At`); finite checks over the grammar (`in_ok`, `part_next`, `quiet_first`) give the decision before every item, `items_tree` follows the nested list productions by induction, `wrapped_of` uses the source order of positions. |
| C49 | Enumeration items begin lines | partial | `C49_enumerations_partial`, `C49_false` | Instance of C48 for short class specifiers; the enumeration list is the only thing between its brackets (`enum_alone`). |
| C50 | Every grammatical file is accepted | partial | `C50_grammatical_accepted_partial`, `C50_false_initial`, `C50_false_end` | `Reading` (Spec/Accept.lean) says what a grammatical token list is, with the regular expressions of Spec/Grammar.lean and without the parser. Proofs/Accept.lean executes each grammar function symbolically along the expression of its production, knowing the next symbol, what may remain, the kinds of the current token and how many look-aheads were spent; FIRST and FOLLOW sets and look-ahead budgets are tables (Proofs/AcceptTable.lean) that the kernel checks to be closed. Proofs/AcceptRun.lean proves by induction over the evaluation that every run follows the execution, so no error branch, no panic and no exhausted look-ahead counter is reached; C20 excludes running out of depth. The two exceptions are proved to be refused with concrete files. |
| C51 | Exactly which files are accepted | proved | `C51_accepted_iff` | From right to left C50. From left to right C25 gives the tree, and Proofs/Opens.lean shows, by an analysis of the tests made just before each call of the rule for equations, that no tree the parser builds (accepted or not) contains one of the two kinds of equations. |
| C52 | The tree of a file is determined by its tokens | proved | `C52_unambiguous` | Both trees are what the parser builds for the tokens (C50). |
| C53 | The lexer takes the longest token everywhere | proved | `C53_divided`, `C53_lexed`, `C53_ascii` | `Divided` (Spec/Lexemes.lean) describes the division with the lexical classes of Spec/Lexical.lean and `Longest`, without a lexer. Proofs/Munch.lean shows that at every place where a token starts the scanner finds one that is at least as long (`munch_covers`), from which longest match, the converse and uniqueness follow, and treats the error pieces in the same way; emit_pieces evaluates the lexer on the division. One exception is stated in the specification: `/*` never stands for the two operators. |
| C54 | Exactly which texts are accepted | proved | `C54_accepted_text` | C51 for the grammar and C53 for the division of the text. |
| C55 | The first error names a place up to which the text is right | proved | `C55_first_error`, `C55_first_error_ex` | Symbolic execution of the grammar functions along their productions, as for C49, with the additional check that what the production still expects can be completed (`runLive`, checked for every production by evaluation in the kernel). `run_out` carries this through all runs up to the first message; a completing tree for every production is computed (`trees_fine`). The tokens of the completion are then spelled as a text and lexed with C53. |
| C56 | No error is reported before the last token ahead of the fault | proved | `C56_not_early`, `C56_not_early_ex` | Two runs on token lists with a common beginning are compared (`run_agree`): they go through the same states until the parser stands at the last common token, because every grammar function looks at most one token ahead (`near_all`). The class specifier looks two ahead, but passes the name and `=` in either case (`specifier_agree`). |
| C57 | White space of the source matters only through none, one or several line breaks | proved | `C57_same_breaks`, `C57_respaced`, `C57_crlf` | Relational induction over the formatter (Proofs/FmtRel.lean) for two streams whose lines have the same distances, counted up to two: all comparisons of lines in the formatting functions, `handle_break` and `is_multiline` come out alike. The lines of two texts with such gaps are so related because distances counted up to two add up. `next_decides` (Proofs/Prefix.lean) shows from the lexical classes that whether a token could be longer is decided by the next character, so the new text divides into the same tokens (C53). |
| C58 | Files written one after the other are formatted one after the other | proved | `C58_join`, `C58_parts` | Lexing: a text that ends with `;` divides into the same pieces whatever follows (Proofs/JoinText.lean, with C53). Acceptance: the grammar of files is a repetition, so two readings are joined to one (Proofs/JoinRun.lean, with C52). Formatting: relational induction (Proofs/FmtRel.lean) first between the first file and the joined one, where later comments stay untouched, then between the second file and the rest of the joined one, with shifted indices and lines and the markers of the first file below. Printing: C11_exact gives level zero between the parts. |
| C59 | A run says and does exactly one thing about each file, in order | proved | `C59_reports`, `C59_stopped`, `C59_unique` | `Report` (Spec/Files.lean) says for one file what has to be said and done, without the functions of the model. One file: case analysis of `formatOne`. The list: induction, with the other files unchanged by each step. `Report` is shown to be functional. |
| C60 | Error messages tell the truth about the tokens | proved | `C60_truthful`, `C60_readable` | `Truthful` (Spec/Messages.lean) lists the wordings without the parser. Symbolic execution (`absRun`) of all parser procedures with a check at every complaint that the look-ahead tests passed so far exclude the kinds it wants; `absRun_sound` carries it over to all runs. |
| C61 | The first message asks for a token that repairs the text | partial | `C61_expected_partial`, `C61_end_false` | Partial: the invariant of C55 (what has been consumed is the beginning of a reading of the grammar, with a completion) extended by the token asked for. Negation: the witness, with the fact that all texts that begin with these eight tokens have a first message about one of them (C56's comparison of two runs that agree on a beginning). |
| C62 | Comments do not influence the layout of the code | proved | `C62_same_layout`, `C62_uncommented` | the layout (C47) is computed from the tree; it commutes with every map of tokens that keeps kinds, lines and whether `within` is the first token (`wholeLayout_map`, Proofs/LayoutMap.lean); the events of the parser depend only on the kinds (C24); the text without comments is divided into the remaining pieces by C53 |
| C63 | The output is the same on every platform, up to line ends | proved | `C63_line_ends`, `C63_crlf`, `C63_strip`, `C63_either`, `C63_between` | the markers do not depend on the end-of-line string (C47), only the printer does; the second run is compared with `Placed`/`SameGaps` as in C57, for both outputs with the same pieces |
| C64 | The kinds of two tokens on a line decide about the blank between them | proved | `C64_blanks`, `C64_sign`, `C64_import`, `C44_operators` | the table of possible (previous kind, gap, kind) triples of `Formatted.groups` (C24/C38) is computed once and compared with the specification `blankBetween` by the kernel over all kinds; signs and imports from the layout of the tree (C47) |
| C65 | Some tokens never begin a line and some never end one | proved | `C65_lines` | no triple of the table of C64 with a line break has such kinds (kernel computation over all kinds), and every place of the output is in the table |
| C66 | No blank before semicolons and commas and after opening brackets | partial | `C66_spaces_partial`, `C66_spaces_false` | like C64, with a witness computed by the kernel |
| C67 | How the output begins | proved | `C67_beginning`, `C67_cases` | the layout of the tree (C47) begins with the decision for the first token; classes begin without a decision of their own (table `head_first` over the grammar) |
| C68 | Blocks and classes are aligned | partial | `C68_blocks_partial`, `C68_classes_partial`, `C68_case`, `C68_blocks_false` | levels of parts of the tree (`Part.level`, as in C46 and C55) are followed through the children of a block or class; every child that is asked for begins with a break at that level |
| C69 | The library formats any production | partial | `C69_all_or_panic`, `C69_production_partial`, `C69_read_back_partial`, `C69_grammatical_partial`, `C69_case`, `C69_trailing_false`, `C69_left_over` | the run of the formatter for any production is the run for a whole file with other registers at the beginning and the end (`trTree_deaf`, `lib_format`); its groups are read back with the lexer theorems of C02 |
| C70 | Descriptions, annotations and constraining clauses are indented one level | partial | `C70_level`, `C70_notes_partial`, `C70_case`, `C70_notes_false` | from the breaks and levels of C46; the level is followed through the productions of a declaration |
| C71 | Indentation is increased once per expression | partial | `C71_expressions`, `C71_items_partial`, `C71_case`, `C71_items_false` | from the operators and levels of C46: inside an expression the level is that of the expression, plus one as soon as it has been wrapped (`Within.level`) |
| C72 | An edit of one item changes the output only there | partial | `C72_local_partial`, `C72_text_partial`, `C72_case`, `C72_leftover_false` | the tree is divided into the item and what is around it (`Around`); the layout of what is around does not depend on the item but for the indentations left over (`Around.layouts`), nor on the lines on which it stands (`Around.map`, `moveTok`); the groups of the tokens behind it keep the gaps of the source because all their lines move by the same number (`parts_groups`); acceptance by C50 |
| C73 | Another item does not change the output for the others | partial | `C73_insert_partial`, `C73_delete_partial`, `C73_case`, `C73_leftover_false` | the grammar of every list allows another item behind a semicolon (`list_insert`, by derivatives of its regular expression); the layout of the list with the item is the one without it and the item (`insert_layout`); the rest as for C72 |
| C74 | Names, numbers, strings and the texts of comments do not influence the layout | proved | `C74_renamed`, `C74_case` | the events only depend on the kinds (C24), so the trees differ only in texts and places (`buildTree_map`); layout and gaps only look at kinds, indices and lines (`layout_map`, `groups_sub`) |
| C75 | Parsing takes linear time and space | proved | `C75_steps`, `C75_parsed`, `C75_tree`, `C75_case` | every look-ahead and advance pays for ten steps out of the potential 101 per token and 100 (`lifes`); a table of what every grammar function leaves over (`gainTable`, `restTable`) is checked against all bodies and shown to be invariant over all runs (`steps_paid`); for the tree the same with weights of productions against the grammar (`light_le`, `nodes_paid`) |
| C76 | An edit within a line changes the output only there | proved | `C76_swap`, `C76_line`, `C76_expression`, `C76_case`, `C76_description_false` | The layout of a tree around a part is a function of what the part looks like from outside (`Around.swap`, by induction over the path to the part); the new tree is accepted by completeness of the parser; on one line nothing is wrapped or left over, and for expressions the text is that of C15. |
| C77 | Numbers do not overflow and the output is at most quadratic | proved | `C77_positions`, `C77_markers`, `C77_levels`, `C77_output`, `C77_overflow`, `C77_quadratic`, `C77_case` | C77_markers: pushed markers plus twice the comments in the queue grow by at most the cost of a statement (execF_load), hence by 5 for a token and 8 for a production (fmtTree_load), by induction over the tree. C77_output: level of a child is at most 3 more than that of the production plus leaks, hence at most 3 times the productions (layout_within), C75_tree bounds those by 13 per token; pieces are added up over LS.run. C77_quadratic: induction over the depth of nesting (deep_divided, deep_exists, deep_reading, deep_levels), C54 for acceptance, C52 for the tree, C47 for the output. |
| C78 | The depth of recursion follows the nesting of the source | partial | `C78_any`, `C78_calls`, `C78_nesting_partial`, `C78_formatter`, `C78_false`, `C78_case` | The depth of the calls of the parser is defined along the interpreter (Spec/Recursion). It is the height of the tree that the events describe, including productions without tokens, which are at most two high (abstract interpretation of the grammar functions: which pass a token for certain). For the grammar, ranks of productions are checked: a production that stands behind no opening token has lower rank, or is the rest of a list. The formatter is compared to one with a limit on the depth of calls. The counterexample is a family of files, built with the theorems on lexing, acceptance and unambiguity. |
| C79 | A class is formatted the same wherever it stands | proved | `C79_same`, `C79_class`, `C79_case` | The layout (C47) of a part at level n is that at level 0 with all levels shifted (layout_deeper), what stands before a part matters for its first token only (layout_before), and the layout uses only kinds and differences of lines. The two readings of the same tokens are the same tree by C52; the groups printed after the first token depend only on the comments between the tokens of the part. For a class alone the tree is built, accepted by C50/C51 and its layout computed. |
| C80 | The work of the formatter is bounded | proved | `C80_tree`, `C80_file`, `C80_least`, `C80_quadratic`, `C80_case` | An instrumented copy of the interpreter of the formatting functions (Spec/Effort.lean) counts the work, following the run also if it fails. Per statement the work is bounded by a constant times what is near (the current child and the next one), or the whole tree for the statements before the loop; the constants and that no statement within a loop looks at the whole tree are checked for all 88 functions and all kinds of children. Comments are amortised: each is passed once. Summed over the tree this gives the sizes of all subtrees, at most size times height; C75 and C78 bound these by the tokens and the nesting. From below: if formatting succeeds, every function whose call is certain is called, so that the work is at least what contains() visits in modifications on one line; for modifications in modifications the tree is known for every n (C52, C54). |
| C81 | Lexing takes linear time, and formatting a file at most quadratic time | proved | `C81_lexer`, `C81_run`, `C81_order`, `C81_case` | A potential of 65 for each character that is left and 1 for the end not yet noticed pays for every step of the lexer: each function is shown to spend at most what it takes off the potential plus a constant that the first character covers. The run adds up C75 (parser), C75_tree and C80 (formatter), C77 (markers and output); the lower bound is the family of C80. |
| C82 | Swapping two neighbouring items swaps their output and changes nothing else | partial | `C82_swap_partial`, `C82_case`, `C82_leftover_false` | Both orders are compared with the file without one of the two items by the theorems behind C73 (an item is left out, an item is inserted). Leaving out the second item and inserting it in front of the first shows that the first item and the rest are printed as before; leaving out the first one and inserting it behind the second shows it of the second. The tree of the file in between is known, and the tree of the new file is unique. |
| C83 | When the parser gives up, it says so about a token of the file, and not before the fault | proved | `C83_says`, `C83_token`, `C83_place`, `C83_case`, `C83_late` | An interpreter that also returns the parser state at a panic is defined and proved to agree with the other one. The position in a crash state is inside the file (induction on the fuel). Two runs on token lists with a common beginning are in lockstep as long as nothing is seen behind it (the simulation behind C56), so a crash in one inside the common part, two tokens of lookahead aside, is a crash in the other. |
| C84 | The order of the paths does not matter, and one run does the same as several | proved | `C84_order`, `C84_reports`, `C84_apart`, `C84_locked`, `C84_case`, `C84_unfinished_false` | What processing a file does to the disk and to the exit code is shown to depend only on whether the path is one of a Modelica file and on the file it leads to (the result of the parser does not depend on the name, C24 and C41). Two such steps commute: they are the same step, or they concern different files. The rest is induction over permutations. For the division into two runs: the operations of a run depend on the disk only. |
| C85 | The items of a list are formatted one by one | partial | `C85_items_partial`, `C85_text_partial`, `C85_case` | Induction on the list of items. Inserting one item (the core of C73) leaves what is printed for all other tokens as it is and leaves two places for further items: before and behind it. The remaining items are inserted behind it. That an item is printed the same behind another one as alone follows by inserting the two in both orders: the results are the same file. |
| C86 | Comments stay at the end of their line of code or on lines of their own | proved | `C86_lines`, `C86_case` | Induction over the tokens with their layout decisions, from the sections in which the formatter is shown to follow them (C45, C47). The comments taken at a break are split by the line on which they begin; the white space before each is computed. |
| C87 | Any part of an accepted file can be replaced by another part of the same kind | proved | `C87_replace`, `C87_case` | By C51 a file is accepted exactly if its tokens are the leaves of a tree of the grammar with a local condition on equations; both are preserved by the replacement. The events of the parser depend on the kinds of the tokens only (C24), and the tree of the events is the one of the grammar (C52). |
| C88 | Different programs have different outputs | partial | `C88_same_code_partial`, `C88_case`, `C88_false` | The output is read back (C01, C02, C06): this gives the tokens, the tree and the printed comments of both sources. |
| C89 | Messages come in the order of the file, and not too many of them | proved | `C89_order`, `C89_case` | The messages of the lexer are those of the pieces of the source (C53). For the parser: an invariant of all commands of the grammar says that messages name tokens with increasing indices up to the current one, and that each has used two of the hundred looks. |
| C90 | Options are answered without touching anything | proved | `C90_options`, `C90_case` | Case analysis over the arguments. |
| C91 | --check tells what formatting would do | proved | `C91_check_predicts`, `C91_case` | From what a format run writes (C32), when a run finishes (C43), what the exit code tells (C30) and what is reported (C59). |
| C92 | The name of a file is only mentioned | proved | `C92_name_mentioned`, `C92_content`, `C92_case`, `C92_content_case` | Two runs of the lexer and of the parser that differ only in the name are related step by step: equal states except for messages that begin with the two names. |
| C93 | A byte order mark is reported and does not end the run | partial | `C93_mark_reported_partial`, `C93_mark_panics`, `C93_run_panics`, `C93_case` | How a text divides after a character that starts no token (C53), and that parsing depends only on the kinds of the tokens (C24). |
| C94 | A file without code keeps its comments | partial | `C94_white_partial`, `C94_only`, `C94_emptied`, `C94_case` | How the text divides (C53), the events of an empty list of tokens, and how a formatted file ends (C35). |

## 7. Axioms per theorem

(printed by `#print axioms` in the files)

* **propext**: `C01_false`, `C02_false`, `C04_false`, `C06_false`, `C07_false`, `C09_false`, `C12_false`, `C12_false_comment`, `C15_canonical`, `C21_false_assert`, `C21_false_stuck`, `C23_needs_stored_definition`, `C24_only_kinds`, `C30_panic_not_zero`, `C40_false`, `C45_plain`, `C49_false`, `C55_first_error_ex`, `C56_not_early_ex`, `C66_spaces_false`, `C67_cases`, `C68_blocks_false`, `C69_trailing_false`, `C69_left_over`, `C70_notes_false`, `C71_items_false`, `C72_leftover_false`, `C73_leftover_false`, `C75_case`, `C76_description_false`, `C77_case`, `C78_case`, `C80_case`, `C81_case`, `C82_leftover_false`, `C83_case`, `C83_late`, `C86_case`, `C88_false`, `C89_case`, `C92_case`
* **no axioms**: `C18_false_bom`
* **propext, Quot.sound**: `C06_exact_case`, `C11_false`, `C11_case`, `C14_streams`, `C14_horizontal`, `C22_events_describe_tokens`, `C23_build_tree_lossless`, `C26_errors_located`, `C27_error_node_reported`, `C46_case_breaks`, `C48_false`, `C50_false_initial`, `C50_false_end`, `C53_ascii`, `C60_truthful`, `C68_case`, `C69_all_or_panic`, `C69_case`, `C70_case`, `C71_case`, `C77_markers`, `C78_formatter`, `C80_tree`, `C80_least`, `C83_says`, `C83_token`, `C83_place`, `C87_case`
* **propext, Classical.choice, Quot.sound**: `C01_tokens_preserved_partial`, `C01_no_lone_cr`, `C02_same_tree_partial`, `C03_formatting_succeeds`, `C03_formatted`, `C04_comments_partial`, `C05_comments_at_breaks`, `C06_comments_kept_partial`, `C06_exact_partial`, `C07_line_comments_partial`, `C08_white_space`, `C09_no_trailing_blanks_partial`, `C10_no_underflow`, `C11_exact`, `C11_balanced_partial`, `C12_steady_partial`, `C12_output_steady`, `C12_twice_partial`, `C12_exact_partial`, `C12_exact_cases`, `C12_unsettled`, `C13_steady_partial`, `C13_twice_partial`, `C13_exact_partial`, `C13_false`, `C15_one_line`, `C15_again`, `C16_lossless`, `C17_positions`, `C18_lex_returns_partial`, `C18_false`, `C18_panics_iff`, `C19_classes`, `C19_class_lexed`, `C20_parser_terminates`, `C20_events_terminates`, `C21_partial`, `C25_accepted_conforms`, `C28_check_never_writes`, `C29_errors_untouched`, `C30_exit_code`, `C30_usage`, `C31_directory_listing`, `C31_only_modelica_written`, `C32_writes_formatted`, `C33_partial`, `C33_false`, `C34_partial`, `C34_false`, `C35_end_of_file`, `C36_partial`, `C36_false`, `C37_new_lines`, `C38_spacing`, `C39_source_order`, `C40_first_terminator_partial`, `C41_name_irrelevant`, `C42_sections`, `C43_run_finishes`, `C44_operators`, `C44_case`, `C45_breaks`, `C45_case`, `C46_lines`, `C46_breaks`, `C46_operators`, `C46_unique`, `C46_case`, `C47_layout`, `C47_total`, `C48_lists_partial`, `C48_nested_partial`, `C48_one_line`, `C48_rows`, `C49_enumerations_partial`, `C50_grammatical_accepted_partial`, `C51_accepted_iff`, `C52_unambiguous`, `C53_divided`, `C53_lexed`, `C54_accepted_text`, `C55_first_error`, `C56_not_early`, `C57_same_breaks`, `C57_respaced`, `C57_crlf`, `C58_join`, `C58_parts`, `C59_reports`, `C59_stopped`, `C59_unique`, `C60_readable`, `C61_expected_partial`, `C61_end_false`, `C62_same_layout`, `C62_uncommented`, `C63_line_ends`, `C63_crlf`, `C63_strip`, `C63_either`, `C63_between`, `C64_blanks`, `C64_sign`, `C64_import`, `C44_operators`, `C65_lines`, `C66_spaces_partial`, `C67_beginning`, `C68_blocks_partial`, `C68_classes_partial`, `C69_production_partial`, `C69_read_back_partial`, `C69_grammatical_partial`, `C70_level`, `C70_notes_partial`, `C71_expressions`, `C71_items_partial`, `C72_local_partial`, `C72_text_partial`, `C72_case`, `C73_insert_partial`, `C73_delete_partial`, `C73_case`, `C74_renamed`, `C74_case`, `C75_steps`, `C75_parsed`, `C75_tree`, `C76_swap`, `C76_line`, `C76_expression`, `C76_case`, `C77_positions`, `C77_levels`, `C77_output`, `C77_overflow`, `C77_quadratic`, `C78_any`, `C78_calls`, `C78_nesting_partial`, `C78_false`, `C79_same`, `C79_class`, `C79_case`, `C80_file`, `C80_quadratic`, `C81_lexer`, `C81_run`, `C81_order`, `C82_swap_partial`, `C82_case`, `C84_order`, `C84_reports`, `C84_apart`, `C84_locked`, `C84_case`, `C84_unfinished_false`, `C85_items_partial`, `C85_text_partial`, `C85_case`, `C86_lines`, `C87_replace`, `C88_same_code_partial`, `C88_case`, `C89_order`, `C90_options`, `C90_case`, `C91_check_predicts`, `C91_case`, `C92_name_mentioned`, `C92_content`, `C92_content_case`, `C93_mark_reported_partial`, `C93_mark_panics`, `C93_run_panics`, `C93_case`, `C94_white_partial`, `C94_only`, `C94_emptied`, `C94_case`

Modules: `Verif.Props.Accept`, `Verif.Props.Bare`, `Verif.Props.Beginning`, `Verif.Props.Blanks`, `Verif.Props.Blocks`, `Verif.Props.Breaks`, `Verif.Props.Cli`, `Verif.Props.CliCheck`, `Verif.Props.CliEnd`, `Verif.Props.CliOrder`, `Verif.Props.CliReport`, `Verif.Props.CommentLines`, `Verif.Props.Crash`, `Verif.Props.Deep`, `Verif.Props.Distinct`, `Verif.Props.Early`, `Verif.Props.Effort`, `Verif.Props.Fixed`, `Verif.Props.Grammar`, `Verif.Props.Idempotent`, `Verif.Props.Indent`, `Verif.Props.Insert`, `Verif.Props.Items`, `Verif.Props.Join`, `Verif.Props.Kept`, `Verif.Props.Layout`, `Verif.Props.LexWork`, `Verif.Props.Lexemes`, `Verif.Props.Lexer`, `Verif.Props.Library`, `Verif.Props.Lists`, `Verif.Props.Local`, `Verif.Props.Mark`, `Verif.Props.MessageOrder`, `Verif.Props.Messages`, `Verif.Props.Moved`, `Verif.Props.Named`, `Verif.Props.NoCode`, `Verif.Props.Notes`, `Verif.Props.Numbers`, `Verif.Props.OneLine`, `Verif.Props.Options`, `Verif.Props.Parser`, `Verif.Props.Platform`, `Verif.Props.Recursion`, `Verif.Props.Rename`, `Verif.Props.Reorder`, `Verif.Props.Replace`, `Verif.Props.Roundtrip`, `Verif.Props.Spacing`, `Verif.Props.Stable`, `Verif.Props.Swap`, `Verif.Props.Viable`, `Verif.Props.Whole`, `Verif.Props.Work`, `Verif.Props.Wrapping`.
