{"id": "C01", "title": "Formatting preserves every token", "statement": "If parse(name, source, StoredDefinition) reports no errors, then lexing the string written back (pretty_print output followed by the end-of-line) reports no lexical error and yields exactly the same sequence of (kind, text) pairs as lexing the source.", "quantifier": "every source text accepted without errors, both end-of-line conventions", "why_tests_cant": "There are unboundedly many token adjacencies and nestings; a single pair of tokens glued together, dropped or duplicated in one untested context changes the program.", "anchors": ["src/lib.rs:pretty_print", "src/formatter/formatting.rs:format", "src/formatter/printing.rs:print", "src/parser/lexing.rs:lex"]}
{"id": "C02", "title": "Formatted output parses to the same syntax tree", "statement": "If parse(name, source, StoredDefinition) reports no errors, then parsing the formatted text reports no errors and produces exactly the same event sequence, so the rebuilt syntax tree differs from the original one only in token positions.", "quantifier": "every source text accepted without errors", "why_tests_cant": "Needs the token-preservation theorem for every tree shape together with the fact that the parser only looks at token kinds.", "anchors": ["src/lib.rs:pretty_print", "src/parser.rs:parse", "src/parser/parsing.rs:events", "src/parser/tree.rs:build_tree"]}
{"id": "C03", "title": "Formatting an accepted file never panics", "statement": "If parse(name, source, StoredDefinition) returns with an empty error list then build_tree, format and print all return normally: no unreachable!(), no unwrap on None, no failed assertion, no unsigned underflow.", "quantifier": "every source text accepted without errors", "why_tests_cant": "The formatter contains about a hundred unreachable!/unwrap sites guarded only by an unwritten agreement with the parser about tree shapes.", "anchors": ["src/parser/tree.rs:build_tree", "src/formatter/formatting.rs:format", "src/formatter/printing.rs:Printer::print_marker"]}
{"id": "C04", "title": "Comments are never invented, altered, duplicated or reordered", "statement": "The comments of the formatted text, with their exact texts, form a subsequence of the comments of the source.", "quantifier": "every source text accepted without errors, any number and placement of comments", "why_tests_cant": "Comments may occur between any two tokens; tests place them in a handful of positions.", "anchors": ["src/formatter/formatting.rs:Formatter::handle_break", "src/formatter/formatting.rs:Formatter::comments_before"]}
{"id": "C05", "title": "Exactly the comments at line breaks survive", "statement": "For every token of the source, the comments standing between it and the preceding token all appear in the output between the same two tokens, in order, if the output has a line break between those two tokens, and none of them appears otherwise; comments after the last token never appear.", "quantifier": "every source text accepted without errors, every token, every comment", "why_tests_cant": "Ranges over all placements of comments in all syntactic contexts.", "anchors": ["src/formatter/formatting.rs:Formatter::handle_break", "src/formatter/formatting.rs:Formatter::handle_token"]}
{"id": "C06", "title": "No comment is ever lost", "statement": "Every comment of an accepted source appears in the formatted output.", "quantifier": "every source text accepted without errors", "why_tests_cant": "A universally quantified preservation claim; the shipped tests only contain comments in positions that happen to survive.", "anchors": ["src/formatter/formatting.rs:Formatter::handle_token", "src/formatter/formatting.rs:stored_definition"]}
{"id": "C07", "title": "A line comment is always terminated before the next token", "statement": "In the formatted output every line comment is immediately followed by a line end, so no token can be swallowed by a comment.", "quantifier": "every source text accepted without errors, every line comment", "why_tests_cant": "One context in which a line comment is followed by a blank instead of a break silently comments out code.", "anchors": ["src/formatter/formatting.rs:Formatter::handle_break"]}
{"id": "C08", "title": "Whitespace of the output is in normal form", "statement": "In the formatted output the text between two consecutive tokens or comments is empty, a single space, one line end followed by an even number of spaces, or two line ends followed by an even number of spaces; nothing else.", "quantifier": "every source text accepted without errors, every pair of consecutive lexemes of the output", "why_tests_cant": "Universally quantified over trees; every function of the formatter contributes a part of the gap.", "anchors": ["src/formatter/formatting.rs:format", "src/formatter/printing.rs:print"]}
{"id": "C09", "title": "No trailing blanks, never two blank lines in a row", "statement": "Outside token and comment texts no line of the output ends with a blank, and there are never two consecutive blank lines.", "quantifier": "every source text accepted without errors", "why_tests_cant": "Follows only from an invariant over all marker sequences the formatter can emit.", "anchors": ["src/formatter/printing.rs:Printer::print_marker", "src/formatter/formatting.rs:Formatter::handle_break"]}
{"id": "C10", "title": "Indentation never underflows", "statement": "While printing, the indentation counter is never decremented below zero (an unsigned underflow would panic or produce 2^64 blanks).", "quantifier": "every source text accepted without errors", "why_tests_cant": "Indent and Dedent are pushed by different functions under data-dependent conditions.", "anchors": ["src/formatter/printing.rs:Printer::print_marker", "src/formatter/formatting.rs:expression", "src/formatter/formatting.rs:format"]}
{"id": "C11", "title": "Indentation is balanced", "statement": "After formatting a whole file the indentation counter is back at zero, i.e. every Indent is matched by a Dedent.", "quantifier": "every source text accepted without errors", "why_tests_cant": "The wrapped flag is threaded through a dozen mutually recursive functions.", "anchors": ["src/formatter/formatting.rs:equation", "src/formatter/formatting.rs:statement", "src/formatter/formatting.rs:simple_expression", "src/formatter/formatting.rs:output_expression_list"]}
{"id": "C12", "title": "Formatting is idempotent", "statement": "Formatting the formatted text again gives the same text.", "quantifier": "every source text accepted without errors", "why_tests_cant": "Wrapping decisions of the second run are taken from the layout produced by the first run, for every possible layout.", "anchors": ["src/lib.rs:pretty_print"]}
{"id": "C13", "title": "A freshly formatted file passes --check", "statement": "Running mofmt on a file and then mofmt --check on the same file reports that the check passed.", "quantifier": "every accepted file content", "why_tests_cant": "Equivalent to idempotence of the whole pipeline.", "anchors": ["src/main.rs:format_files"]}
{"id": "C14", "title": "Horizontal layout of the input is irrelevant", "statement": "Two token/comment streams that agree in kinds, texts, order and line numbers give the same output, whatever the columns and byte offsets are.", "quantifier": "every pair of inputs that differ only in horizontal whitespace", "why_tests_cant": "A two-run (relational) property over all inputs.", "anchors": ["src/lib.rs:pretty_print", "src/formatter/formatting.rs:format"]}
{"id": "C15", "title": "Single-line expressions are put into one canonical form", "statement": "In every accepted file, an expression whose tokens are all on one line is printed on one line, with no comments inside and with blanks exactly where the style prescribes (around binary operators, after commas, around keywords, none inside parentheses). The text depends only on the structure of the expression and the kinds and texts of its tokens. When the output is formatted again, the expression is on one line and printed with the same text.", "quantifier": "every accepted source text and every expression in it (at any nesting depth) whose tokens are on one line; for the second run, sources whose line comments end their lines", "why_tests_cant": "Unbounded expression nesting and a two-run property.", "anchors": ["src/formatter/formatting.rs:simple_expression", "src/formatter/formatting.rs:expression", "src/formatter/formatting.rs:primary", "src/lib.rs:pretty_print"]}
{"id": "C16", "title": "Lexing is lossless", "statement": "If lexing reports no error, the source text is exactly the concatenation, in idx order, of the texts of all tokens and comments interleaved with ASCII whitespace.", "quantifier": "every source text lexed without error", "why_tests_cant": "All strings over Unicode.", "anchors": ["src/parser/lexing.rs:lex", "src/parser/lexing.rs:Lexer::generate_token"]}
{"id": "C17", "title": "Token positions are exact", "statement": "For every token and comment, start.line is one plus the number of newlines before it, start.pos the number of bytes before it, end.pos the number of bytes up to and including it, end.line counts the newlines inside it as well, and idx numbers tokens and comments consecutively from 0.", "quantifier": "every source text lexed without error, every token", "why_tests_cant": "Depends on every character consumed so far by a dozen scanning loops.", "anchors": ["src/parser/lexing.rs:Lexer::next", "src/parser/lexing.rs:Lexer::generate_token"]}
{"id": "C18", "title": "Lexing never panics", "statement": "lex returns for every source text.", "quantifier": "every source text", "why_tests_cant": "Byte-offset slicing of UTF-8 text; needs every string.", "anchors": ["src/parser/lexing.rs:Lexer::generate_token", "src/parser/lexing.rs:Lexer::lex_linecomment"]}
{"id": "C19", "title": "Every token has the lexical form of its kind", "statement": "The text of each token belongs to the lexical class of its kind: operators and keywords are spelled exactly, identifiers are never keywords, numbers, strings, quoted identifiers and comments have their delimiters.", "quantifier": "every source text, every token", "why_tests_cant": "All strings.", "anchors": ["src/parser/lexing.rs:Lexer::lex_source", "src/parser/lexing.rs:Lexer::lex_nondigit"]}
{"id": "C20", "title": "The parser always terminates", "statement": "For every token list and every entry rule the parser stops, with a result or a panic; the depth of its evaluation (nested rules plus loop rounds) is bounded linearly in the number of tokens. It never loops forever.", "quantifier": "every token list, every entry rule, well-formed or not", "why_tests_cant": "Non-termination cannot be observed by a test; the bound must hold for every malformed input.", "anchors": ["src/parser/parsing.rs:Parser::nth", "src/parser/parsing.rs:Parser::advance"]}
{"id": "C21", "title": "Syntax errors are reported, never a crash", "statement": "For every source text parse returns a (possibly empty) error list instead of panicking.", "quantifier": "every source text", "why_tests_cant": "All malformed inputs.", "anchors": ["src/parser/parsing.rs:Parser::blowup", "src/parser/parsing.rs:Parser::advance", "src/parser/parsing.rs:Parser::error"]}
{"id": "C22", "title": "Parser events describe the token list exactly", "statement": "Whenever the parser returns, the events form one balanced production whose Advance events correspond one-to-one, in order, to a prefix of the tokens; for StoredDefinition they cover all tokens, even when errors were reported.", "quantifier": "every token list, every entry rule", "why_tests_cant": "All inputs, including malformed ones.", "anchors": ["src/parser/parsing.rs:events", "src/parser/parsing.rs:Parser::exit"]}
{"id": "C23", "title": "build_tree succeeds on parser output and loses nothing", "statement": "For every source for which parse(StoredDefinition) returns, build_tree(tokens, events) returns a tree whose leaves are exactly the tokens in order and which contains no empty subtree.", "quantifier": "every source text on which the parser returns", "why_tests_cant": "Universally quantified over event sequences; build_tree contains three assertions and four unwraps.", "anchors": ["src/parser/tree.rs:build_tree"]}
{"id": "C24", "title": "Parsing depends only on token kinds", "statement": "Two token lists with the same kinds produce the same events and the same number of errors, whatever the texts and positions are.", "quantifier": "every pair of token lists with equal kinds, every entry rule", "why_tests_cant": "Two-run property.", "anchors": ["src/parser/parsing.rs:Parser::nth", "src/parser/parsing.rs:events"]}
{"id": "C25", "title": "Accepted files conform to the Modelica grammar", "statement": "If parse(StoredDefinition) reports no error, every production of the tree has children allowed by the grammar rule of that production and no Error node occurs.", "quantifier": "every source text accepted without errors", "why_tests_cant": "Soundness of a recursive-descent parser with error recovery for all token sequences.", "anchors": ["src/parser/parsing.rs:stored_definition", "src/parser/parsing.rs:expression"]}
{"id": "C26", "title": "Error messages point at real tokens", "statement": "Every parser error is of the form name:line:col: message where line:col is the start of a token of the input.", "quantifier": "every token list, every entry rule, every reported error", "why_tests_cant": "All malformed inputs.", "anchors": ["src/parser/parsing.rs:Parser::error"]}
{"id": "C27", "title": "No error reported means no Error node", "statement": "The events contain a production marked Error only if at least one error was reported.", "quantifier": "every token list, every entry rule", "why_tests_cant": "All malformed inputs.", "anchors": ["src/parser/parsing.rs:Parser::advance_with_error", "src/parser/parsing.rs:Parser::exit"]}
{"id": "C28", "title": "Check mode never modifies a file", "statement": "mofmt --check PATHS leaves the contents of every file unchanged, whatever the files contain and whichever of them are malformed or unreadable.", "quantifier": "every file system, every list of paths, also when the run panics midway", "why_tests_cant": "All file systems and argument lists.", "anchors": ["src/main.rs:format_files"]}
{"id": "C29", "title": "Files with syntax errors are left untouched", "statement": "In format mode a file whose parse reports errors keeps its content and the exit code of the run is 1.", "quantifier": "every file system, every list of paths", "why_tests_cant": "All file systems and argument lists.", "anchors": ["src/main.rs:format_files"]}
{"id": "C30", "title": "The exit code tells the truth", "statement": "When format_files finishes, the exit code is 0 exactly if every listed file was readable Modelica, parsed without errors and, in check mode, was already equal to its formatted text; otherwise it is 1.", "quantifier": "every file system, every list of paths, both modes", "why_tests_cant": "All histories of files processed in order.", "anchors": ["src/main.rs:format_files", "src/main.rs:main"]}
{"id": "C31", "title": "Only Modelica files are read or written", "statement": "A file whose extension is not mo is never written, and directory traversal yields exactly the mo files below the directory.", "quantifier": "every file system, every list of paths", "why_tests_cant": "All directory trees.", "anchors": ["src/main.rs:is_modelica", "src/main.rs:read_file", "src/main.rs:get_files_from_dir"]}
{"id": "C32", "title": "Format mode writes exactly the formatted text", "statement": "After a format run over distinct files that finished normally, every listed Modelica file that parsed without errors contains pretty_print of its old content followed by the end-of-line, and every other file of the file system is unchanged.", "quantifier": "every file system, every list of distinct files", "why_tests_cant": "All histories; interference between files.", "anchors": ["src/main.rs:format_files", "src/main.rs:write_file"]}
{"id": "C33", "title": "One bad file does not prevent the others from being processed", "statement": "A file that is unreadable, not Modelica or syntactically wrong does not influence what happens to the other files of the run.", "quantifier": "every file system, every list of paths", "why_tests_cant": "All orders of files, all failure kinds.", "anchors": ["src/main.rs:format_files"]}
{"id": "C34", "title": "Crash safety of writing", "statement": "If the process dies while a file is being written, the file contains either its old or its new content.", "quantifier": "every crash point", "why_tests_cant": "Crash points cannot be enumerated by unit tests.", "anchors": ["src/main.rs:write_file"]}
{"id": "C35", "title": "A formatted file ends with its last semicolon and one line end", "statement": "The formatted text of an accepted source with at least one token ends with the text of the last token, which is a semicolon, followed by exactly one end-of-line; an accepted source without tokens is formatted to a single end-of-line.", "quantifier": "every source text accepted without errors", "why_tests_cant": "All inputs.", "anchors": ["src/main.rs:format_files", "src/formatter/formatting.rs:stored_definition"]}
{"id": "C36", "title": "--check is honoured wherever it is given", "statement": "If --check is among the command line arguments no file is modified.", "quantifier": "every argument list", "why_tests_cant": "All argument lists.", "anchors": ["src/main.rs:main"]}
{"id": "C37", "title": "Mandatory line breaks", "statement": "In the formatted output every element, equation, statement, description and annotation starts on a new line, as the style guide promises.", "quantifier": "every source text accepted without errors, every such construct", "why_tests_cant": "All nestings of constructs.", "anchors": ["src/formatter/formatting.rs:handle_break", "code-style.md"]}
{"id": "C38", "title": "Spacing around punctuation and binary operators follows the style guide", "statement": "In the formatted output no blank precedes a semicolon (except after within) or a closing bracket other than after a dropped output, every comma is followed by a blank or line break, and '=', ':=', relational, multiplicative, 'and', 'or' operators are surrounded by blanks or line breaks.", "quantifier": "every source text accepted without errors, every pair of adjacent tokens", "why_tests_cant": "All adjacencies reachable through arbitrary nesting.", "anchors": ["src/formatter/formatting.rs:format", "code-style.md"]}
{"id": "C39", "title": "Every output of the lexer is in source order", "statement": "Tokens and comments carry strictly increasing idx, and their line intervals do not overlap out of order, so the interleaving of tokens and comments can be reconstructed by idx.", "quantifier": "every source text", "why_tests_cant": "All strings.", "anchors": ["src/parser/lexing.rs:Lexer::generate_token"]}
{"id": "C40", "title": "Block comments end at their first terminator", "statement": "A block comment token starts with /* and ends at the first following */ that does not overlap the opening, as in the Modelica specification.", "quantifier": "every source text, every block comment", "why_tests_cant": "All strings.", "anchors": ["src/parser/lexing.rs:Lexer::lex_blockcomment"]}
{"id": "C41", "title": "Lexing does not depend on the file name", "statement": "For two file names, lexing the same source returns the same tokens and comments and equally many errors, or panics in both cases.", "quantifier": "every source text, every two names", "why_tests_cant": "Quantifies over all pairs of names and all texts.", "anchors": ["src/parser/lexing.rs:43-70", "src/parser/lexing.rs:117-122"]}
{"id": "C42", "title": "Sections are set off by an empty line", "statement": "In the formatted output every `public`, `protected`, `external`, `equation` and `algorithm` keyword (the last two unless preceded by `initial`) is separated from the previous token by an empty line, possibly with comments between.", "quantifier": "every source text accepted without errors, every such keyword", "why_tests_cant": "Which formatting function emits the break depends on what precedes the section (description, elements, another section); the combinations are unbounded because sections repeat and nest.", "anchors": ["src/formatter/formatting.rs"]}
{"id": "C43", "title": "When a run finishes", "statement": "A format or check run ends with an exit code exactly if every listed Modelica file that can be read is parsed without panic and, in format mode, if it is accepted, can be written; otherwise the run aborts.", "quantifier": "every file system content, every argument list, both modes (for format mode: paths naming distinct files)", "why_tests_cant": "Quantifies over all file contents and all lists of files.", "anchors": ["src/main.rs:format_files"]}
{"id": "C44", "title": "Line breaks at binary operators are those of the source", "statement": "In the output a binary operator begins a line exactly if in the source its right operand begins on a later line than its left operand ends; otherwise it stands on the same line after one blank with no comment between. No empty line stands directly before the operator, and exactly one blank stands after it.", "quantifier": "every accepted source, every binary operator (or, and, relations, +, -, *, /, ^ and the element-wise ones), both line-end conventions", "why_tests_cant": "Quantifies over all files and all nestings of expressions; tests show single expressions.", "anchors": ["code-style.md: Expressions", "src/formatter/formatting.rs:logical_expression", "src/formatter/formatting.rs:arithmetic_expression"]}
{"id": "C45", "title": "Automatic line breaks and empty lines", "statement": "Class definitions, elements, equations, statements, description strings, annotations, constraining clauses, section keywords, else-branches and end keywords begin a line. An empty line always stands before sections, the first element, equation or statement of a section, the class annotation and `end` of a class. Before other elements, equations, statements, class definitions and else-branches one empty line stands exactly if the source has at least one there. There is none directly before descriptions, constraining clauses and the other annotations. With comments in between, the empty lines before the comments follow the same rules.", "quantifier": "every accepted source, every node of its syntax tree and every child of it, both line-end conventions", "why_tests_cant": "Quantifies over all files, nestings and comment placements.", "anchors": ["code-style.md: Automatic wrapping", "code-style.md: Automatic blank lines", "src/formatter/formatting.rs:handle_break"]}
{"id": "C46", "title": "The indentation of every line follows from the syntax tree", "statement": "Every token of the output either continues the line of the token before it (with nothing or one blank between), or begins a line whose indentation is two blanks per level, where the level is that of a syntactic part that begins with the token; comments on lines of their own in front of the token have the same indentation. The level of a part is the level of its parent, plus the entry for the part in a table of the style rules (contents of classes and sections, arguments, descriptions and annotations, branches of conditional expressions, ...), plus one from the first wrapped operator of an expression on, plus the indentations not undone by wrapped left hand sides before it. For structural line breaks and for wrapped operators the part is the one that the break is for.", "quantifier": "every accepted file, every token, every part of the syntax tree", "why_tests_cant": "Indentation is a counter changed in about eighty places under run time flags; a test sees one path, and a missing dedent shows only lines later.", "anchors": ["src/formatter/formatting.rs:219-2150", "src/formatter/markers.rs", "src/formatter/printing.rs", "code-style.md"]}
{"id": "C47", "title": "The whole output is given by explicit layout tables", "statement": "For every accepted source, formatting succeeds and the text written is exactly the one obtained from the syntax tree and the comments by two finite tables: what stands before each child of a production (nothing, a blank, a line break, a line break that keeps one empty line), depending only on the production, the neighbouring children and a handful of facts about the source (whether a list, an operator's operands or a conditional expression spans several lines, whether a description occurs), and by how many levels a child is indented. Nothing else about the source (columns, blank runs, line lengths, names) has any influence on the layout.", "quantifier": "all sources accepted by the parser, all file names, both end-of-line conventions", "why_tests_cant": "A test compares the output for one source; the claim fixes every blank, line break and indentation of the output of every accepted source, for all nestings of productions and all positions of comments.", "anchors": ["src/formatter/formatting.rs:219-2150", "src/formatter/printing.rs", "src/parser/tree.rs", "code-style.md"]}
{"id": "C48", "title": "Lists are wrapped consistently", "statement": "In the output the items of a list (arguments of a function call, elements of an array, rows of a matrix, subscripts, modifications, import lists, connect arguments, enumeration items, several components of one clause) either all begin a line or all stay on the line of the token before them. They begin lines whenever the source has a line break anywhere inside the list, at any depth of nesting, so all enclosing lists are wrapped too; a list on one line without descriptions is never wrapped.", "quantifier": "every accepted source, every list in it at any nesting depth, both end-of-line conventions", "why_tests_cant": "Arbitrary nesting of lists in lists and arbitrary positions of line breaks; the flag is passed down through a dozen formatting functions.", "anchors": ["code-style.md: Manual wrapping", "src/formatter/formatting.rs:function_call_args", "src/formatter/formatting.rs:primary", "src/formatter/formatting.rs:class_modification", "src/formatter/formatting.rs:output_expression_list"]}
{"id": "C49", "title": "Enumeration items begin lines", "statement": "As the style guide says under automatic wrapping, every item of an enumeration begins a line.", "quantifier": "every accepted source, every enumeration", "why_tests_cant": "All enumerations in all contexts.", "anchors": ["code-style.md: Automatic wrapping", "src/formatter/formatting.rs:short_class_specifier", "src/formatter/formatting.rs:enum_list"]}
{"id": "C50", "title": "Every grammatical file is accepted", "statement": "If the text of a file is lexically fine and is a sentence of the Modelica grammar, parsing it ends without a panic and without an error message, and the tree that is built is the one the grammar assigns to the text.", "quantifier": "All texts, all trees of the grammar over their tokens, all start rules.", "why_tests_cant": "A parser that looks ahead a fixed number of tokens and counts its look-aheads can refuse or mis-shape some rare combination of constructs; a suite tries only a handful of the infinitely many sentences.", "anchors": ["src/parser/parsing.rs:7-1546", "src/parser/parsing.rs:148-235", "src/parser.rs:25-35", "src/parser/tree.rs:1-132"]}
{"id": "C51", "title": "Exactly which files are accepted", "statement": "A file is parsed without an error message if and only if it is lexically fine and is a sentence of the Modelica grammar in which no equation starts with `end` and no equation directly in an equation section starts with `initial`.", "quantifier": "All texts.", "why_tests_cant": "An equivalence over all texts: neither the refusal of every wrong text nor the acceptance of every right one can be enumerated.", "anchors": ["src/parser/parsing.rs:7-1546", "src/parser/parsing.rs:859-868", "src/parser.rs:25-35"]}
{"id": "C52", "title": "The tree of a file is determined by its tokens", "statement": "Two trees of the Modelica grammar with the same root rule and the same tokens, in which no equation starts with `end` and no equation directly in an equation section starts with `initial`, are the same tree; so the layout of an accepted file does not depend on how the parser happens to explore the grammar.", "quantifier": "All token lists, all pairs of trees over them, all root rules except OutputExpressionList.", "why_tests_cant": "Unambiguity of a grammar is a statement about all pairs of derivations of all sentences.", "anchors": ["src/parser/parsing.rs:7-1546", "src/parser/tree.rs:1-132"]}
{"id": "C53", "title": "The lexer takes the longest token everywhere", "statement": "Every text divides in exactly one way into white space, tokens and comments that are each as long as possible, and errors (a character that starts no token, a quoted identifier with a forbidden character, a string, quoted identifier or block comment that never ends). The tokens, the comments and the error messages that lexing returns are exactly these, with their indices, byte offsets, lines and columns.", "quantifier": "All texts, with and without lexical errors, all file names.", "why_tests_cant": "Whether `1.5e+x`, `a<=-b`, `'q`, `/*/` or `.*` is cut at the right place depends on the characters around it; the number of neighbourhoods is infinite, and a lexer that stops one character early is wrong only next to particular characters.", "anchors": ["src/parser/lexing.rs:5-420"]}
{"id": "C54", "title": "Exactly which texts are accepted", "statement": "A text is accepted as a Modelica file, i.e. parsed without panic and without an error message, if and only if it divides into longest tokens without a lexical error, no line comment ends with a non-ASCII character, and the tokens other than comments are the leaves of a tree of the Modelica grammar in which no equation starts with `end` and none directly in an equation section with `initial`.", "quantifier": "All texts and file names.", "why_tests_cant": "An equivalence over all texts: a finite suite samples accepted and refused texts but cannot exclude that some other text is wrongly refused or wrongly accepted.", "anchors": ["src/parser.rs:25-35", "src/parser/lexing.rs:5-420", "src/parser/parsing.rs:7-1546"]}
{"id": "C55", "title": "The first error names a place up to which the text is right", "statement": "If the lexer finds no error and the parser reports errors, the first message names the line and column of a place in the text such that what precedes the place is the beginning of an accepted file. So the first message is never too late: everything before it is right.", "quantifier": "All texts the lexer accepts and on which the parser reports at least one error, all file names.", "why_tests_cant": "The claim is that some continuation exists for every text that is wrong somewhere; a test can look at a wrong file and its message, but not at all texts, and a parser that passes something wrong before it complains is right on most files.", "anchors": ["src/parser/parsing.rs:100-235", "src/parser/parsing.rs:237-1546"]}
{"id": "C56", "title": "No error is reported before the last token ahead of the fault", "statement": "If a file begins with the same kinds of tokens as some accepted file, then no message of the parser about it names a place before the last of these common tokens. After an edit of an accepted file all messages name the token before the edit or something behind it.", "quantifier": "All pairs of texts the lexer accepts, the second accepted by the parser, every common beginning of their token kinds, every message.", "why_tests_cant": "It compares two runs on texts that differ arbitrarily from some token on; a decision of the parser that depends on a token further ahead shows only for particular continuations.", "anchors": ["src/parser/parsing.rs:172-235", "src/parser/parsing.rs:347-366", "src/parser/parsing.rs:237-1546"]}
{"id": "C57", "title": "White space of the source matters only through none, one or several line breaks", "statement": "Replace the white space between the tokens and comments of a text by other white space (blanks, tabs, form feeds, carriage returns, newlines) so that each gap keeps its number of newlines, counted as none, one, or several. White space may be added between any two tokens and removed as long as some remains; after a comment to the end of the line it must start with a line end. Then the two texts are both formatted to the same output, or both not accepted. In particular a file and the same file with Windows line ends have the same output, if no token or comment goes over several lines.", "quantifier": "All texts, all their divisions into tokens, all replacements of white space of this kind, any leading and trailing white space, all file names, both values of the line end of the output.", "why_tests_cant": "Every file has infinitely many such variants, and the formatter compares line numbers in some fifty places (blank lines, comments, wrapped lists, brackets); a test tries a few variants of a few files, and one comparison of the wrong kind or of columns shows only in particular constructs.", "anchors": ["src/formatter/formatting.rs:133-216", "src/formatter/formatting.rs:218-2197", "src/parser/lexing.rs:78-138", "src/parser/lexing.rs:315-326", "src/parser/tree.rs:75-79"]}
{"id": "C58", "title": "Files written one after the other are formatted one after the other", "statement": "Take accepted files of which each starts, after white space, with a token that is not `within`, not `final` and not a comment, and ends with `;` and white space; and in none of them is an indentation left over (C11). The file obtained by writing them one after the other is accepted, and its output is the outputs of the files one after the other, with an empty line between two of them exactly if there is more than one line break between them in the source. So how a class of a file is formatted does not depend on the other classes of the file.", "quantifier": "All accepted files of this kind, any number of them, all file names, any line end of the output, any white space around the files.", "why_tests_cant": "The formatter goes through the whole file with one state: the last token, its line, the comments not yet written, and the indentation. Whether nothing of it leaks from one class into the next is a statement about all pairs of files; a test shows it for the pairs it tries.", "anchors": ["src/formatter/formatting.rs:133-216", "src/formatter/formatting.rs:218-245", "src/parser/lexing.rs:78-138", "src/parser/parsing.rs:283-297", "src/formatter/printing.rs:1-45"]}
{"id": "C59", "title": "A run says and does exactly one thing about each file, in order", "statement": "What a run writes to standard output, to standard error and to disk is, for each listed file in this order, exactly one of: `<path>: error: <path> is not a Modelica file`; `<path>: error: <message of the operating system>` if it cannot be read; `<path>: error: stream did not contain valid UTF-8`; its syntax errors; `<path>: check passed` exactly if it contains its formatted text, else `<path>: check failed`; or, in format mode, its formatted text is written and nothing is said. Which one it is depends only on the file as it was before the run. If the run is aborted, the same holds of the files before the one that aborted it, of which nothing or a beginning of its formatted text is written, and nothing is said or done about the files after it.", "quantifier": "All file systems (names, bytes, files that cannot be read, opened or written to the end), all argument lists, both modes (format mode: paths naming distinct files).", "why_tests_cant": "The state of the disk changes while the files are processed and any file can abort the run; that no file is skipped, reported twice, or reported with the result of another is a statement about all lists of files and all contents.", "anchors": ["src/main.rs:47-100", "src/main.rs:132-145"]}
{"id": "C60", "title": "Error messages tell the truth about the tokens", "statement": "Every message of the parser says what is there: it is about a token of the text (or the end of the file), gives the line and column of that token (of the last token at the end of the file; of the token before in two kinds of messages), calls it by the name of its kind, and that kind is none of those the message says it wants. Every message has one of six known wordings. No two kinds of tokens have names that can be confused, so `expected X, found Y` can be read in only one way.", "quantifier": "All texts, all file names, all entry points, every message of the run (not only the first).", "why_tests_cant": "The parser has some hundred places that complain, each reached through look-ahead tests that may have moved to another token; that the named token and the position belong together in all of them, also after error recovery, is a statement about all texts.", "anchors": ["src/parser/parsing.rs:219-250", "src/parser/parsing.rs:330-365", "src/parser/parsing.rs:465-490", "src/parser/parsing.rs:1330-1340", "src/parser/tokens.rs:103-238"]}
{"id": "C61", "title": "The first message asks for a token that repairs the text", "statement": "If the first message is `expected X, found Y`, then the text before the token Y can be completed to an accepted file in which the next token is an X.", "quantifier": "All texts without lexical errors whose first parser message is of this form.", "why_tests_cant": "It needs, for every reachable state of the parser, the existence of a completion of the text, whatever the nesting.", "anchors": ["src/parser/parsing.rs:244-250", "src/parser/parsing.rs:298-1590"]}
{"id": "C62", "title": "Comments do not influence the layout of the code", "statement": "Two accepted files with the same tokens on the same lines, whatever comments they contain, are laid out in the same way: what the outputs have between two tokens is in both nothing, in both a blank, or in both a line break of the same sort (forced, allowed blank line, ...) with the same indentation. In particular, replacing every comment of an accepted file by a blank and the line breaks that it contains gives an accepted file without comments whose output has the same layout.", "quantifier": "All pairs of accepted files with the same tokens on the same lines; all accepted files (for the replacement: that do not begin with a comment or have no `within`), all end-of-line strings.", "why_tests_cant": "It compares all placements of comments in a file with each other; the formatter decides about breaks with line numbers and token numbers, both of which comments change.", "anchors": ["src/formatter/formatting.rs:134-240", "src/parser/lexing.rs:95-112"]}
{"id": "C63", "title": "The output is the same on every platform, up to line ends", "statement": "For an accepted file there is one list of texts (tokens, comments, blanks) and line ends such that, for every end-of-line string, the output is this list with that string for the line ends. If no token or comment contains a line feed, the Windows output is the Unix output with a carriage return before every line feed; if none contains a carriage return, removing the carriage returns from the Windows output gives the Unix output. Formatting the outputs of two platforms again, with any end-of-line string, gives the same text; and for files whose output is stable, formatting one platform's output on the other platform gives the other platform's output.", "quantifier": "All accepted files, all end-of-line strings (C63_line_ends); all accepted files whose line comments end in the output where they should (C63_either); all steady files (C63_between).", "why_tests_cant": "The end-of-line string is a compile-time constant of the platform; no run of the program on one platform compares its output with another platform's, and the claim is about all files.", "anchors": ["src/formatter/printing.rs:3-45", "src/lib.rs:9-13", "src/formatter/formatting.rs:50-130"]}
{"id": "C64", "title": "The kinds of two tokens on a line decide about the blank between them", "statement": "Between two tokens that follow each other on a line of the output there is no comment, and whether there is a blank or nothing is determined by the kinds of the two tokens (a table that follows code-style.md: no blank around dots in names, after opening and before closing brackets, before commas and semicolons, before the brackets of calls and subscripts; a blank otherwise). The only two cases in which the kinds do not suffice are decided by the syntax: a sign is not separated from its operand while a binary operator has a blank on both sides, and `.*` at the end of an import is not separated from the name.", "quantifier": "All accepted files, all pairs of consecutive tokens of the output, all end-of-line strings.", "why_tests_cant": "There are 93 x 93 pairs of kinds, and every pair can occur in unboundedly many contexts.", "anchors": ["code-style.md:9-88", "src/formatter/formatting.rs:130-1900"]}
{"id": "C65", "title": "Some tokens never begin a line and some never end one", "statement": "In the output no line begins with a comma, semicolon, closing bracket, `=`, `:=`, `in`, `then`, `loop` or `enumeration`, and no line break (and no comment) follows a dot, a colon, a binary operator or sign, `not`, or one of the keywords that introduce something (class kinds, prefixes, `extends`, `import`, `annotation`, `der`, `connect`, `elseif`, ...), whatever line breaks and comments the input has there.", "quantifier": "All accepted files, all pairs of consecutive tokens, all end-of-line strings.", "why_tests_cant": "The input may have line breaks and comments between any two tokens; tests show only some of the places.", "anchors": ["code-style.md:90-180", "src/formatter/formatting.rs:50-130"]}
{"id": "C66", "title": "No blank before semicolons and commas and after opening brackets", "statement": "As code-style.md promises, there is no blank before a semicolon (except after `within`), before a comma, or after an opening bracket.", "quantifier": "All accepted files, all consecutive tokens on a line.", "why_tests_cant": "The promise is about every bracket, comma and semicolon in every context.", "anchors": ["code-style.md:16-28", "code-style.md:76-88", "src/formatter/formatting.rs:2079-2120"]}
{"id": "C67", "title": "How the output begins", "statement": "The output for an accepted file without tokens is one line end, whatever comments it contains. Otherwise it begins with the first token, and comments before it are dropped, with two exceptions. If the first token is `final`, it begins a line of its own below the comments in front of it, so that the output begins with one or two line ends unless there is a comment on the first line; empty lines among the comments are kept, at most one in a place. If the first token is `within` and there are comments before it, they are kept in the same way, and `within` follows on the next line.", "quantifier": "All accepted files, all end-of-line strings.", "why_tests_cant": "Whatever may stand before the first token (any number of comments and empty lines) has to be considered.", "anchors": ["src/formatter/formatting.rs:218-244", "src/formatter/formatting.rs:20-60"]}
{"id": "C68", "title": "Blocks and classes are aligned", "statement": "In the output of an accepted file, every if, for, when and while block (equation or statement) begins a line. Its keywords elseif, else, elsewhen and end begin lines with the same indentation, and the equations and statements in it begin lines that are indented exactly one level deeper. In a class, end and the sections (public, protected, equation, algorithm, external) begin lines with the indentation of the line on which the class begins, and the elements, equations and statements begin lines one level deeper. What shifts these lines is only the indentation that wrapped left-hand sides leave behind.", "quantifier": "All accepted files, all end-of-line strings, all blocks and all long classes in them, wherever nested.", "why_tests_cant": "The level of a line depends on every indentation and its undoing before it in the file; tests compare a few files, while the claim relates pairs of lines at any distance and nesting depth.", "anchors": ["code-style.md (Indentation)", "src/formatter/formatting.rs (if_equation, for_statement, when_equation, while_statement, composition, long_class_specifier)"]}
{"id": "C69", "title": "The library formats any production", "statement": "The library can be asked to parse any production. It takes tokens from the beginning of the text. If it takes all of them, build_tree returns a tree of this production over exactly these tokens; if some are left, build_tree and pretty_print panic. If the tree conforms to the grammar, pretty_print succeeds: the text consists of all tokens and some comments in order, with the usual white space between them. Read back with the same production, it gives no errors, the same tokens and the same events. Every grammatical text of a production can be formatted and read back in this way.", "quantifier": "All texts, all productions as entry points, all end-of-line strings.", "why_tests_cant": "There are dozens of entry points and infinitely many texts for each; the tests of the repository format a few texts with a few productions.", "anchors": ["src/lib.rs", "src/parser/tree.rs (build_tree)", "src/formatter/formatting.rs:14-113", "src/parser/parsing.rs (loops with consume and eof)"]}
{"id": "C70", "title": "Descriptions, annotations and constraining clauses are indented one level", "statement": "In the output of an accepted file, every description, every annotation after a description string, every annotation of an extends clause, every class description and every constraining clause begins a line, with no empty line before it. In an element, an equation or a statement all of them are indented one level deeper than its first line, however many there are and however deep in the declaration they stand; only in a list of several components on several lines they are one level deeper, like the components. The annotation after a description string is indented like the string.", "quantifier": "All accepted files, all end-of-line strings, all elements, equations, statements and productions with descriptions in them.", "why_tests_cant": "The style guide says that indentation is increased only once per element; the level is the sum of all indentations in force, which depend on everything around and before the element.", "anchors": ["code-style.md (Descriptions, annotations and constraining clauses)", "src/formatter/formatting.rs (description, element, constraining_clause, component_list, extends_clause, long_class_specifier)"]}
{"id": "C71", "title": "Indentation is increased once per expression", "statement": "If an expression is wrapped in the source at binary operators, all these operators, also those in parentheses, begin lines of the output with the same indentation: one level deeper than the expression. In equations and statements, and in the conditions of if, when and while, this is one level deeper than the line with which the equation, the statement or the block begins.", "quantifier": "All accepted files, all end-of-line strings, all expressions, all wrapped operators in them.", "why_tests_cant": "Expressions nest to any depth, and the formatter passes a flag through all operands to know whether it has indented already; tests see a few shapes.", "anchors": ["code-style.md (Expressions)", "src/formatter/formatting.rs (expression, simple_expression, logical_expression, arithmetic_expression, term, factor, relation, primary)"]}
{"id": "C72", "title": "An edit of one item changes the output only there", "statement": "Replace one element, equation or statement of an accepted file by another one, and leave everything before and after it as it is. The new file is accepted, too, and the outputs differ only in the text of this item: what is printed for all tokens and comments before and after it, with the line breaks, empty lines and indentations between them, is the same, on whatever lines the rest of the file now stands.", "quantifier": "All accepted files, all end-of-line strings, all elements, equations and statements in them at any depth, all other items of the same kind with all white space and comments in them.", "why_tests_cant": "The formatter passes counters, flags and the numbers of lines from token to token over the whole file; that none of them carries the traces of an edit to another place is a statement about all pairs of files.", "anchors": ["src/formatter/formatting.rs (Formatter state: indentations, wrapping, prev_line)", "src/parser/parsing.rs", "src/formatter/printing.rs", "src/parser/lexing.rs (positions)"]}
{"id": "C73", "title": "Another item does not change the output for the others", "statement": "Insert an element, an equation or a statement with its semicolon into an accepted file, directly behind the semicolon of another one. The new file is accepted, too, and its output is the output of the old file with the text of the item inserted. Delete an item that stands directly behind the semicolon of another one: the file is still accepted, and the output for everything else stays the same.", "quantifier": "All accepted files, all end-of-line strings, all lists of elements, equations and statements (in sections, if, for, when and while) at any depth, all items with all white space and comments in them.", "why_tests_cant": "The formatter passes counters, flags and the numbers of lines from token to token over the whole file, and the lines of everything behind the new item change; tests compare a few pairs of files.", "anchors": ["src/formatter/formatting.rs (element_list, equation_section, algorithm_section, if_equation, for_equation, when_equation, if_statement, for_statement, while_statement, when_statement)", "src/parser/parsing.rs", "src/formatter/printing.rs"]}
{"id": "C74", "title": "Names, numbers, strings and the texts of comments do not influence the layout", "statement": "Take an accepted file and replace the texts of its tokens and comments by others of the same kinds (identifiers by identifiers, numbers by numbers, strings by strings, comments by comments), so that every token stays on its line. The new file is accepted, too, and its output is the old output with exactly these texts replaced: all line breaks, empty lines, indentations and blanks between tokens and comments are the same.", "quantifier": "All accepted files, all end-of-line strings, all replacements of texts that keep kinds and lines, including names of any length.", "why_tests_cant": "No finite set of names settles that nowhere in the lexer, parser, formatter and printer a text, its length or a column is looked at.", "anchors": ["src/formatter/formatting.rs", "src/formatter/printing.rs", "src/parser/parsing.rs", "src/parser/lexing.rs"]}
{"id": "C75", "title": "Parsing takes linear time and space", "statement": "For a file with n tokens the parser makes at most 1010 n + 1015 steps, whatever the tokens are, also if errors are reported or it stops with a panic. The numbers of tokens and comments together are at most the length of the file; the numbers of events and messages together are linear in it. The syntax tree of an accepted file has at most 13 productions for every token, and one for the file.", "quantifier": "All texts, all tokens lists, all productions as entry points, including erroneous input; for the size of the tree all accepted files.", "why_tests_cant": "Bad inputs for a recursive descent parser with look-ahead and error recovery (nested, repeated or broken constructs) are exactly the ones nobody has in a test; timing tests do not give a bound.", "anchors": ["src/parser/parsing.rs (Parser: lifes, nth, advance, expect)", "src/parser/parsing.rs", "src/parser/syntax.rs"]}
{"id": "C76", "title": "An edit within a line changes the output only there", "statement": "Replace a part of an accepted file that is a production of the grammar (an expression, a name, a modification, a component, ...) and written on one line by another part of the same kind on that line, and leave everything before and after it as it is. Let the new part contain descriptions if and only if the old one does, and let it begin with `end` or `initial` only if the old one does. Then the new file is accepted, too, and the outputs differ only in the text of this part. If the part is an expression, the new output is the old one with the canonical text of the new expression in the place of that of the old expression.", "quantifier": "All accepted files, all end-of-line strings, all productions at any depth except lists of outputs, all other parts of the same kind, whatever stands around them; both parts end with a token and not with a comment.", "why_tests_cant": "How lists, brackets and operands are laid out depends on properties of everything inside of them; that no other trace of a part is seen from outside is a statement about all contexts and all pairs of parts.", "anchors": ["src/formatter/formatting.rs (multiline checks, wrapping, contains)", "src/parser/parsing.rs", "src/formatter/printing.rs", "code-style.md"]}
{"id": "C77", "title": "Numbers do not overflow and the output is at most quadratic", "statement": "The byte offsets, lines, columns and indices of tokens and comments are at most the size of the file (plus one for lines and columns); the formatter produces at most 5 markers per token, 8 per production and 2 per comment, and the indentation is at most linear, at every moment; for a file of less than 2^50 bytes no counter reaches 2^64. The output is at most as long as the source and, for every token and comment, white space that is linear in the number of tokens; so it is at most quadratic in the size of the file. Quadratic is the right order: for every n there is an accepted file of 15(n+1) characters whose formatted text has at least n(n+1).", "quantifier": "for every text (positions), for every tree and every list of comments (markers), for every accepted file (sizes), for every n (the lower bound)", "why_tests_cant": "An overflow would only show in files of astronomic size, and the growth of the output cannot be read off finitely many files.", "anchors": ["src/parser/lexing.rs:78-114", "src/formatter/formatting.rs:116-216", "src/formatter/printing.rs:21-44", "src/lib.rs:9-13"]}
{"id": "C78", "title": "The depth of recursion follows the nesting of the source", "statement": "How deep the functions of the parser and of the formatter call each other (and so how much stack a file needs) depends on how deep classes, blocks, conditional expressions and brackets are nested in the file, and not on its length.", "quantifier": "all source texts; all accepted files and their trees", "why_tests_cant": "A test shows that one file of a certain size does not overflow the stack. That no long but flat file can overflow it is a statement about all lengths.", "anchors": ["src/parser/parsing.rs:148-161", "src/parser/parsing.rs:1405-1448", "src/parser/tree.rs:4-31", "src/formatter/formatting.rs:14-113", "src/formatter/formatting.rs:1974-2004"]}
{"id": "C79", "title": "A class is formatted the same wherever it stands", "statement": "Moving a part of a file to another place does not change how it is formatted, except for its indentation. If the same text of a class, an element, a declaration, a modification, an equation or a statement (any construct but operands and the lists in brackets, whose layout depends on what they stand in) occurs in two accepted files, then the outputs for it, from its first token to its last with all comments in between, are the same up to the number of levels by which the lines are indented. In particular a class of a package, put into a file of its own with `;` after it, is accepted, and the output of that file is what is printed for the class inside the package, shifted to the left, with `;` and a line end.", "quantifier": "all accepted files, all their parts of the kinds named, all places in which the same text occurs as such a part, all comments in it", "why_tests_cant": "It relates the outputs of two different files for every construct in every surrounding; tests compare one input with one expected output. A dependence on the surroundings (the position in the file, the tokens before, the state of the formatter left over) shows only in combinations that no test lists.", "anchors": ["src/formatter/formatting.rs:14-216", "src/formatter/printing.rs:21-44", "code-style.md"]}
{"id": "C80", "title": "The work of the formatter is bounded", "statement": "Formatting terminates after an amount of work that is known beforehand. Whatever tree it is given, and also if it fails, the formatter executes at most 117 times (size of the tree) times (height of the tree) steps, plus one for every comment, where a step is a statement, a condition, or a token or subtree that is looked at. For an accepted file this is proportional to the number of tokens times the depth of nesting (and the length of the longest list of arguments). It is not linear: for every n there is a file of 6 n + 29 characters, with modifications in modifications on one line, for which the formatter makes more than 5 (n+1)^2 steps, because for every modification everything within is searched for descriptions.", "quantifier": "for all trees and comments; for all accepted files; for all n", "why_tests_cant": "A test measures one file; here the bound holds for every tree, and the family shows that no better bound than a quadratic one exists.", "anchors": ["src/formatter/formatting.rs", "src/parser/tree.rs"]}
{"id": "C81", "title": "Lexing takes linear time, and formatting a file at most quadratic time", "statement": "For every text, the number of times the lexer looks at or takes a character, makes a token or a message or compares a word with a keyword is at least the length of the text and at most 65 times the length plus 1. For every accepted file, the work of a whole run (lexer, parser, tree, formatter, markers and output) is at most a fixed quadratic polynomial in the length of the file; there are accepted files of every size for which it is at least quadratic.", "quantifier": "all texts the lexer finishes with (any text, correct or not); all accepted files, names and line ends; for the lower bound every size n", "why_tests_cant": "Timing some files cannot show that no file makes the formatter hang or blow up; the bound is over all texts, and it holds for the number of elementary steps rather than for a machine.", "anchors": ["src/parser/lexing.rs:66-70", "src/parser/lexing.rs:130-187", "src/parser/lexing.rs:190-345", "src/parser/lexing.rs:348-417", "src/lib.rs:9-13"]}
{"id": "C82", "title": "Swapping two neighbouring items swaps their output and changes nothing else", "statement": "Take an accepted file and two neighbouring elements, equations or statements of it (each with its semicolon and the comments in front of it) that stand behind another one of the same list. The file with the two items in the other order is accepted, too. Its output is the output of the old file with the output for the two items swapped: what is printed for every token, including the line breaks, the indentation and the comments in front of it, stays the same, except that the output depends on what is left over of the indentation by an item.", "quantifier": "for all accepted files, all positions in them, all pairs of neighbouring items, whatever they consist of, all white space and comments in and around them, all file names and both line endings", "why_tests_cant": "A test swaps two particular items in a particular file. The formatter keeps state while it walks the tree (indentation, the last token, pending comments), and only an argument about every item shows that none of it is carried from one item to the next.", "anchors": ["src/formatter/formatting.rs (element_list, equation_section, algorithm_section, if_equation, for_equation, when_equation, if_statement, for_statement, while_statement, when_statement)", "src/parser/parsing.rs", "src/formatter/printing.rs"]}
{"id": "C83", "title": "When the parser gives up, it says so about a token of the file, and not before the fault", "statement": "On some faulty files the parser does not collect errors but ends the program with the message 'name:line:column: Parser stuck'. It does so exactly on the files on which it makes no more progress. The line and the column are those of a token of the file. If the file begins with the same kinds of tokens as a file on which the parser does not end the program (for instance an accepted file of which it is an edited version), then the token named is one of the last two of the common tokens or a later one. The errors found before are not reported, so the token named can be far behind the first fault.", "quantifier": "for all texts the lexer accepts without panic, all file names, all entry points of the parser, and all files with which the common beginning is shared", "why_tests_cant": "A test provokes the message on one file and compares one line and column. That the message never points in front of the fault relates a faulty file to every file with the same beginning, and the parser's counter of remaining attempts is changed by every look at a token.", "anchors": ["src/parser/parsing.rs (nth, blowup, eof, advance)"]}
{"id": "C84", "title": "The order of the paths does not matter, and one run does the same as several", "statement": "If a run finishes, then a run with the same paths in any other order (in the same mode, on the same disk) finishes with the same exit code and leaves every file with the same contents, even if several paths lead to the same file. The report consists of one piece per file, and the two reports consist of the same pieces. A run over all paths does and says the same as a run over some of them followed by a run over the others, and its exit code is 1 if one of theirs is. Only directories that cannot be listed make a difference: they end the run before anything is done or said.", "quantifier": "for all lists of paths and their permutations and divisions, all directory trees, all contents of the files, all ways in which paths lead to files, all devices that run full or refuse to be written, both modes and both line endings", "why_tests_cant": "A test runs the program on one list of files in one order. That the result is the same for every order relies on the absence of any state carried from one file to the next and, for paths that lead to the same file, on the fact that formatting does not depend on the name of the path.", "anchors": ["src/main.rs (format_files, get_files_from_dir)"]}
{"id": "C85", "title": "The items of a list are formatted one by one", "statement": "Take an accepted file and the semicolon of an element, an equation or a statement in it. There are a beginning, an end and, for every item that can stand behind this semicolon, a text, such that the following holds for any number of such items, in any order, also repeated: the file with these items behind the semicolon is accepted, and its output is the beginning, the texts of the items in their order, and the end. So what is printed for an item depends neither on the items before it nor on those behind it, nor on how many there are; items can be added, removed, repeated and permuted, and the output changes in the same way.", "quantifier": "for all accepted files, all semicolons of items in them, all lists of items of any length, whatever the items consist of, all white space and comments in and around them, all file names and both line endings", "why_tests_cant": "A test formats one list of items. There are infinitely many lists, and that the text of an item is the same in all of them is a statement about the state that the formatter, the comment handling and the printer carry from one item to the next.", "anchors": ["src/formatter/formatting.rs (element_list, equation_section, algorithm_section, if_equation, for_equation, when_equation, if_statement, for_statement, while_statement, when_statement)", "src/parser/parsing.rs", "src/formatter/printing.rs"]}
{"id": "C86", "title": "Comments stay at the end of their line of code or on lines of their own", "statement": "In the output of an accepted file every comment that is printed stands between the same two tokens as in the source. If it begins on the line on which the token before it ends in the source, it is printed on the line of this token, with one blank before it. Otherwise it begins a line of its own in the output, which is indented like the line of the token behind the comment. Nothing but such a comment stands between a comment and the next line of code: the token behind comments always begins a line.", "quantifier": "for all accepted files, all comments in them, all tokens, whether the line break before them comes from the structure of the file or from the source, all file names and both line endings", "why_tests_cant": "A test places comments at some tokens. There are about a hundred places in the formatter where a line break is decided, and the property must hold at each of them, for any number and mixture of comments.", "anchors": ["src/formatter/formatting.rs (Formatter::handle_break, Formatter::comments_before, Formatter::handle_token)", "src/formatter/printing.rs"]}
{"id": "C87", "title": "Any part of an accepted file can be replaced by another part of the same kind", "statement": "Take an accepted file and a part of it that is a production of the grammar, such as an expression, a name, a modification, a statement, a class or a list of arguments. If the part is replaced by any other text that is a production of the same kind, and the new one does not begin with `end` or `initial`, the file is accepted, too, and its syntax tree is the old one with the new part in place of the old one: the parts around it are understood as before.", "quantifier": "for all accepted files, all parts of their trees, all productions of the same kind with at least one token, all white space and comments, and all file names", "why_tests_cant": "The parser decides by looking at the next tokens only, and some of its decisions depend on tokens further ahead or on where it is. Whether an expression that is accepted in one place is accepted in every place is a statement about all pairs of contexts and expressions.", "anchors": ["src/parser/parsing.rs"]}
{"id": "C88", "title": "Different programs have different outputs", "statement": "If two accepted files have the same output, they are the same program: they have the same tokens in the same order, the same syntax tree, and the same comments among those that are printed. So formatting never makes two different programs look the same, and nothing but white space and lost comments is taken away.", "quantifier": "for all pairs of accepted files, all file names and all pairs of line endings", "why_tests_cant": "A test compares particular outputs. That no pair among infinitely many files collides needs an argument that the code can be read back from any output.", "anchors": ["src/formatter/formatting.rs", "src/formatter/printing.rs", "src/parser/lexing.rs"]}
{"id": "C89", "title": "Messages come in the order of the file, and not too many of them", "statement": "The messages about a file are those of the lexer followed by those of the parser. Each group is in the order of the lines and columns it names, and no two messages of the lexer name the same place. There is at most one message of the lexer for every character, and at most fifty of the parser for every token and the end of the file.", "quantifier": "for all texts, all file names and all entry productions", "why_tests_cant": "The parser goes on after an error and reports more; that it never goes back, and never floods the user with messages about one place, concerns every broken file.", "anchors": ["src/parser/lexing.rs:117-122", "src/parser/parsing.rs:177-235", "src/parser/mod.rs"]}
{"id": "C90", "title": "Options are answered without touching anything", "statement": "Every list of arguments either names paths, possibly after --check, and then exactly these are processed; or nothing is read, no file is changed and exactly one message is printed, which does not depend on the files: on standard output with exit code 0 if the first argument asks for help or the version, on standard error with exit code 1 otherwise. An unknown option is named in the message.", "quantifier": "for all lists of arguments, all file systems and all disk contents", "why_tests_cant": "There are infinitely many argument lists, and that none of the other forms reads or writes a file concerns every file system.", "anchors": ["src/main.rs:6-45"]}
{"id": "C91", "title": "--check tells what formatting would do", "statement": "If formatting some files would finish, then checking them finishes, too. The check ends with exit code 0 exactly if formatting would end with exit code 0 and change nothing on the disk; and the files that formatting would change are exactly those for which the check is reported to have failed.", "quantifier": "for all file systems, all disk contents and all lists of paths that lead to distinct files", "why_tests_cant": "The two modes are different paths through the program; that they agree on every file in every environment is a statement about two runs at once.", "anchors": ["src/main.rs:47-100"]}
{"id": "C92", "title": "The name of a file is only mentioned", "statement": "Reading the same text under two file names ends in the same way and gives the same tokens, comments and events. The messages are the same, in the same order: each consists of the name of the file and a rest that does not depend on the name. So what a file is formatted to depends only on its content: two Modelica files with the same content, wherever they are, are both formatted to the same text or neither is formatted.", "quantifier": "all texts, all pairs of file names, all entry rules; all pairs of disks and systems with the same line ends", "why_tests_cant": "The name is passed through the lexer and every rule of the parser; a test compares two names on one text, the claim is about all texts, including those that end in a panic.", "anchors": ["src/parser/lexing.rs:generate_error", "src/parser/parsing.rs:error", "src/parser.rs:parse", "src/main.rs:format_files"]}
{"id": "C93", "title": "A byte order mark is reported and does not end the run", "statement": "If a file would be accepted, then the same file with a byte order mark (or another character that is not ASCII) before it is rejected with exactly one message, about this character in line 1 and column 1, and the run goes on with the other files.", "quantifier": "all accepted texts, all characters that are not ASCII, all file names; all runs over such a file, with --check or without", "why_tests_cant": "Whether the text after the mark matters, and how, concerns every text; the tests of the project contain no file with a mark.", "anchors": ["src/parser/lexing.rs:next", "src/parser/lexing.rs:generate_token", "src/parser/lexing.rs:generate_error", "src/main.rs:format_files"]}
{"id": "C94", "title": "A file without code keeps its comments", "statement": "Formatting a file that consists of comments and white space only keeps the comments; a file of white space only becomes a single line end; no file with code is ever emptied.", "quantifier": "all texts that consist of white space and readable comments, all file names, all line ends; for the last part all accepted texts", "why_tests_cant": "A test shows the fate of one file; that no comment at all survives without code, whatever it is, and that no code is ever lost in this way, concerns all texts.", "anchors": ["src/formatter/formatting.rs:stored_definition", "src/formatter/formatting.rs:handle_token", "src/main.rs:format_files"]}
