{
 "claims": [
  {
   "property": "C01",
   "status": "partial",
   "theorems": [
    "Mofmt.C01_tokens_preserved_partial",
    "Mofmt.C01_no_lone_cr",
    "Mofmt.C01_false"
   ],
   "note": "false for a line comment ended by a carriage return without line feed (witness); proved for every file in which line comments end their lines, in particular every file without lone carriage returns"
  },
  {
   "property": "C02",
   "status": "partial",
   "theorems": [
    "Mofmt.C02_same_tree_partial",
    "Mofmt.C02_false"
   ],
   "note": "false with C01 (on the output of the witness the parser panics); proved under the same condition"
  },
  {
   "property": "C03",
   "status": "proved",
   "theorems": [
    "Mofmt.C03_formatting_succeeds",
    "Mofmt.C03_formatted"
   ],
   "note": ""
  },
  {
   "property": "C04",
   "status": "partial",
   "theorems": [
    "Mofmt.C04_comments_partial",
    "Mofmt.C04_false"
   ],
   "note": "false with C01; proved under the same condition"
  },
  {
   "property": "C05",
   "status": "proved",
   "theorems": [
    "Mofmt.C05_comments_at_breaks"
   ],
   "note": "textual: the output is given token by token with the comments printed before each"
  },
  {
   "property": "C06",
   "status": "partial",
   "theorems": [
    "Mofmt.C06_comments_kept_partial",
    "Mofmt.C06_exact_partial",
    "Mofmt.C06_exact_case",
    "Mofmt.C06_false"
   ],
   "note": "false (witness: header comment, comment inside a line, comment after the last token); proved for comments before the constructs that start a new line; and exactly: when the comments end their lines, reading the output back finds those comments of the source whose next token begins a line of the output, and no others"
  },
  {
   "property": "C07",
   "status": "partial",
   "theorems": [
    "Mofmt.C07_line_comments_partial",
    "Mofmt.C07_false"
   ],
   "note": "false with C01; proved under the same condition"
  },
  {
   "property": "C08",
   "status": "proved",
   "theorems": [
    "Mofmt.C08_white_space"
   ],
   "note": ""
  },
  {
   "property": "C09",
   "status": "partial",
   "theorems": [
    "Mofmt.C09_no_trailing_blanks_partial",
    "Mofmt.C09_false"
   ],
   "note": "false at the very beginning of the output (witness: two empty first lines); proved elsewhere"
  },
  {
   "property": "C10",
   "status": "proved",
   "theorems": [
    "Mofmt.C10_no_underflow"
   ],
   "note": ""
  },
  {
   "property": "C11",
   "status": "partial",
   "theorems": [
    "Mofmt.C11_exact",
    "Mofmt.C11_balanced_partial",
    "Mofmt.C11_false",
    "Mofmt.C11_case"
   ],
   "note": "false (witness: left hand side of an equation with its operator on the next line); C11_exact counts the unmatched indents of every accepted file: one for every wrapped left hand side of an equation and every wrapped list before `:=`"
  },
  {
   "property": "C12",
   "status": "partial",
   "theorems": [
    "Mofmt.C12_steady_partial",
    "Mofmt.C12_output_steady",
    "Mofmt.C12_twice_partial",
    "Mofmt.C12_exact_partial",
    "Mofmt.C12_exact_cases",
    "Mofmt.C12_unsettled",
    "Mofmt.C12_false",
    "Mofmt.C12_false_comment"
   ],
   "note": "false (witnesses: a component list broken because of a description; a block comment over several lines followed by something). Proved: for steady sources (decidable condition on tree and comments); the first output is always steady if line comments end their lines, so the second output is always a fixed point; and exactly: when line comments and comments with line breaks end their lines, the output is a fixed point if and only if the lists of the source are settled"
  },
  {
   "property": "C13",
   "status": "partial",
   "theorems": [
    "Mofmt.C13_steady_partial",
    "Mofmt.C13_twice_partial",
    "Mofmt.C13_exact_partial",
    "Mofmt.C13_false"
   ],
   "note": "false with C12; proved exactly when a check passes after formatting (when comments end their lines); proved for steady files, and for every file after formatting twice (line comments ending their lines)"
  },
  {
   "property": "C14",
   "status": "proved",
   "theorems": [
    "Mofmt.C14_streams",
    "Mofmt.C14_horizontal"
   ],
   "note": ""
  },
  {
   "property": "C15",
   "status": "proved",
   "theorems": [
    "Mofmt.C15_one_line",
    "Mofmt.C15_canonical",
    "Mofmt.C15_again"
   ],
   "note": "PrintedAs, OnLine and oneLine are defined in Spec/OneLine.lean; C15_case shows a file meeting the hypotheses."
  },
  {
   "property": "C16",
   "status": "proved",
   "theorems": [
    "Mofmt.C16_lossless"
   ],
   "note": ""
  },
  {
   "property": "C17",
   "status": "proved",
   "theorems": [
    "Mofmt.C17_positions"
   ],
   "note": ""
  },
  {
   "property": "C18",
   "status": "partial",
   "theorems": [
    "Mofmt.C18_lex_returns_partial",
    "Mofmt.C18_false",
    "Mofmt.C18_false_bom",
    "Mofmt.C18_panics_iff"
   ],
   "note": "false: every line comment ending in a non-ASCII character panics, and a byte order mark does; proved for ASCII texts, and that no other panic exists and the lexer always stops; C18_panics_iff says exactly which texts panic"
  },
  {
   "property": "C19",
   "status": "proved",
   "theorems": [
    "Mofmt.C19_classes",
    "Mofmt.C19_class_lexed"
   ],
   "note": ""
  },
  {
   "property": "C20",
   "status": "proved",
   "theorems": [
    "Mofmt.C20_parser_terminates",
    "Mofmt.C20_events_terminates"
   ],
   "note": "evaluation depth linear in the number of tokens"
  },
  {
   "property": "C21",
   "status": "partial",
   "theorems": [
    "Mofmt.C21_partial",
    "Mofmt.C21_false_assert",
    "Mofmt.C21_false_stuck"
   ],
   "note": "false as stated: two witnesses; proved that no other panic can occur"
  },
  {
   "property": "C22",
   "status": "proved",
   "theorems": [
    "Mofmt.C22_events_describe_tokens"
   ],
   "note": ""
  },
  {
   "property": "C23",
   "status": "proved",
   "theorems": [
    "Mofmt.C23_build_tree_lossless",
    "Mofmt.C23_needs_stored_definition"
   ],
   "note": ""
  },
  {
   "property": "C24",
   "status": "proved",
   "theorems": [
    "Mofmt.C24_only_kinds"
   ],
   "note": ""
  },
  {
   "property": "C25",
   "status": "proved",
   "theorems": [
    "Mofmt.C25_accepted_conforms"
   ],
   "note": "regular right-hand sides of all 87 productions; the one deviation from the appendix is marked in Spec/Grammar.lean"
  },
  {
   "property": "C26",
   "status": "proved",
   "theorems": [
    "Mofmt.C26_errors_located"
   ],
   "note": ""
  },
  {
   "property": "C27",
   "status": "proved",
   "theorems": [
    "Mofmt.C27_error_node_reported"
   ],
   "note": ""
  },
  {
   "property": "C28",
   "status": "proved",
   "theorems": [
    "Mofmt.C28_check_never_writes"
   ],
   "note": ""
  },
  {
   "property": "C29",
   "status": "proved",
   "theorems": [
    "Mofmt.C29_errors_untouched"
   ],
   "note": ""
  },
  {
   "property": "C30",
   "status": "proved",
   "theorems": [
    "Mofmt.C30_exit_code",
    "Mofmt.C30_panic_not_zero",
    "Mofmt.C30_usage"
   ],
   "note": ""
  },
  {
   "property": "C31",
   "status": "proved",
   "theorems": [
    "Mofmt.C31_directory_listing",
    "Mofmt.C31_only_modelica_written"
   ],
   "note": ""
  },
  {
   "property": "C32",
   "status": "proved",
   "theorems": [
    "Mofmt.C32_writes_formatted"
   ],
   "note": ""
  },
  {
   "property": "C33",
   "status": "partial",
   "theorems": [
    "Mofmt.C33_partial",
    "Mofmt.C33_false"
   ],
   "note": "false when the bad file makes the parser panic (witness); proved for files that are unreadable, not Modelica, or have reported errors"
  },
  {
   "property": "C34",
   "status": "partial",
   "theorems": [
    "Mofmt.C34_partial",
    "Mofmt.C34_false"
   ],
   "note": "false (witness: crash after truncation); proved that at most one file is damaged and holds a prefix of its new text"
  },
  {
   "property": "C35",
   "status": "proved",
   "theorems": [
    "Mofmt.C35_end_of_file"
   ],
   "note": ""
  },
  {
   "property": "C36",
   "status": "partial",
   "theorems": [
    "Mofmt.C36_partial",
    "Mofmt.C36_false"
   ],
   "note": "false (witness); proved when it is the first argument"
  },
  {
   "property": "C37",
   "status": "proved",
   "theorems": [
    "Mofmt.C37_new_lines"
   ],
   "note": ""
  },
  {
   "property": "C38",
   "status": "proved",
   "theorems": [
    "Mofmt.C38_spacing"
   ],
   "note": ""
  },
  {
   "property": "C39",
   "status": "proved",
   "theorems": [
    "Mofmt.C39_source_order"
   ],
   "note": ""
  },
  {
   "property": "C40",
   "status": "partial",
   "theorems": [
    "Mofmt.C40_first_terminator_partial",
    "Mofmt.C40_false"
   ],
   "note": "false for /*/ (witness); proved for every other block comment"
  },
  {
   "property": "C41",
   "status": "proved",
   "theorems": [
    "Mofmt.C41_name_irrelevant"
   ],
   "note": ""
  },
  {
   "property": "C42",
   "status": "proved",
   "theorems": [
    "Mofmt.C42_sections"
   ],
   "note": ""
  },
  {
   "property": "C43",
   "status": "proved",
   "theorems": [
    "Mofmt.C43_run_finishes"
   ],
   "note": ""
  },
  {
   "property": "C44",
   "status": "proved",
   "theorems": [
    "Mofmt.C44_operators",
    "Mofmt.C44_case"
   ],
   "note": ""
  },
  {
   "property": "C45",
   "status": "proved",
   "theorems": [
    "Mofmt.C45_breaks",
    "Mofmt.C45_plain",
    "Mofmt.C45_case"
   ],
   "note": "the table `breakBefore` lists the places; the first class definition of a file and `within` after comments are not in the table"
  },
  {
   "property": "C46",
   "status": "proved",
   "theorems": [
    "Mofmt.C46_lines",
    "Mofmt.C46_breaks",
    "Mofmt.C46_operators",
    "Mofmt.C46_unique",
    "Mofmt.C46_case",
    "Mofmt.C46_case_breaks"
   ],
   "note": "the table `extraIn` and the relation `Level` (Spec/Indent.lean) are the specification; they include the indentation leak of C11"
  },
  {
   "property": "C47",
   "status": "proved",
   "theorems": [
    "Mofmt.C47_layout",
    "Mofmt.C47_total"
   ],
   "note": "Spec/Whole.lean gives the tables (gapIn, extraIn via levelIn, brokenIn, passedIn) without using the formatter model. The gaps left by the 60-odd formatting functions are checked against the tables in every state by a finite check over the grammar (Proofs/GapCheck) whose soundness is proved (GapExec, GapAt, GapRun), then by induction on the tree."
  },
  {
   "property": "C48",
   "status": "partial",
   "theorems": [
    "Mofmt.C48_lists_partial",
    "Mofmt.C48_nested_partial",
    "Mofmt.C48_one_line",
    "Mofmt.C48_rows",
    "Mofmt.C48_false"
   ],
   "note": "false for the list of outputs before `:=` or in parentheses: a line break in it is removed (witness C48_false); proved for all other lists. A matrix with several rows is a list of rows, its rows are lists of their own (C48_rows); a single component is not a list."
  },
  {
   "property": "C49",
   "status": "partial",
   "theorems": [
    "Mofmt.C49_enumerations_partial",
    "Mofmt.C49_false"
   ],
   "note": "false: `type E = enumeration(a, b);` stays on one line (witness). Proved: the items begin lines exactly if the brackets are on different lines in the source or an item has a description or annotation."
  },
  {
   "property": "C50",
   "status": "partial",
   "theorems": [
    "Mofmt.C50_grammatical_accepted_partial",
    "Mofmt.C50_false_initial",
    "Mofmt.C50_false_end"
   ],
   "note": "False of the code: an equation that starts with `end`, or directly in an equation section with `initial` (as in `initial() = b;`), is grammatical but refused, because these words end the loop over the equations. C50_grammatical_accepted_partial proves the statement for all other sentences and all start rules except OutputExpressionList."
  },
  {
   "property": "C51",
   "status": "proved",
   "theorems": [
    "Mofmt.C51_accepted_iff"
   ],
   "note": "Acceptance means that `parse` returns and its list of errors is empty."
  },
  {
   "property": "C52",
   "status": "proved",
   "theorems": [
    "Mofmt.C52_unambiguous"
   ],
   "note": "The statement does not mention the parser; the parser is used in the proof."
  },
  {
   "property": "C53",
   "status": "proved",
   "theorems": [
    "Mofmt.C53_divided",
    "Mofmt.C53_lexed",
    "Mofmt.C53_ascii"
   ],
   "note": "The lexer panics on the texts named in C18; C53_lexed says for which, and gives the result for all others."
  },
  {
   "property": "C54",
   "status": "proved",
   "theorems": [
    "Mofmt.C54_accepted_text"
   ],
   "note": "Both sides are stated without lexer and parser: Spec/Lexemes.lean and Spec/Accept.lean."
  },
  {
   "property": "C55",
   "status": "proved",
   "theorems": [
    "Mofmt.C55_first_error",
    "Mofmt.C55_first_error_ex"
   ],
   "note": "At the end of a file the place is that of the last token. Only the first message is meant: after it the parser is out of step (C50)."
  },
  {
   "property": "C56",
   "status": "proved",
   "theorems": [
    "Mofmt.C56_not_early",
    "Mofmt.C56_not_early_ex"
   ],
   "note": "The slack of one token is real: `import B.;` is reported at the dot although `import B.` can be continued (C56_not_early_ex)."
  },
  {
   "property": "C57",
   "status": "proved",
   "theorems": [
    "Mofmt.C57_same_breaks",
    "Mofmt.C57_respaced",
    "Mofmt.C57_crlf"
   ],
   "note": "Stronger than C14, which is about token streams with equal lines. A block comment or string over several lines keeps its own newlines, so its text is not the same in a file with Windows line ends."
  },
  {
   "property": "C58",
   "status": "proved",
   "theorems": [
    "Mofmt.C58_join",
    "Mofmt.C58_parts"
   ],
   "note": "The conditions are needed: beside the theorems there is a file in which a comment that starts the second part is lost or not depending on whether there is a first part, and one in which an indentation left over (C11) shifts the next class."
  },
  {
   "property": "C59",
   "status": "proved",
   "theorems": [
    "Mofmt.C59_reports",
    "Mofmt.C59_stopped",
    "Mofmt.C59_unique"
   ],
   "note": "What the panic itself prints is not modelled."
  },
  {
   "property": "C60",
   "status": "proved",
   "theorems": [
    "Mofmt.C60_truthful",
    "Mofmt.C60_readable"
   ],
   "note": "Position: C26 says what line and column mean. Syntax-error messages of the lexer are not included."
  },
  {
   "property": "C61",
   "status": "partial",
   "theorems": [
    "Mofmt.C61_expected_partial",
    "Mofmt.C61_end_false"
   ],
   "note": "True unless Y is the end of the file. False there: in `type A = B[1,` (end of file) the message is `expected ']', found EOF`, but no accepted file begins with these tokens and `]`."
  },
  {
   "property": "C62",
   "status": "proved",
   "theorems": [
    "Mofmt.C62_same_layout",
    "Mofmt.C62_uncommented"
   ],
   "note": "Whether there is a blank line at a break that may keep one depends on the comments there (C10); `SameLayout` says that both breaks are of the same sort. A comment before `within` at the beginning of the file does make a difference (the break after the comment), hence the condition of C62_uncommented."
  },
  {
   "property": "C63",
   "status": "proved",
   "theorems": [
    "Mofmt.C63_line_ends",
    "Mofmt.C63_crlf",
    "Mofmt.C63_strip",
    "Mofmt.C63_either",
    "Mofmt.C63_between"
   ],
   "note": "The conditions on line comments and steadiness are those of C57 and C60 and are part of the statement."
  },
  {
   "property": "C64",
   "status": "proved",
   "theorems": [
    "Mofmt.C64_blanks",
    "Mofmt.C64_sign",
    "Mofmt.C64_import",
    "Mofmt.C44_operators"
   ],
   "note": ""
  },
  {
   "property": "C65",
   "status": "proved",
   "theorems": [
    "Mofmt.C65_lines"
   ],
   "note": "It follows that comments at such places are not in the output; C01/C59 say which comments are lost."
  },
  {
   "property": "C66",
   "status": "partial",
   "theorems": [
    "Mofmt.C66_spaces_partial",
    "Mofmt.C66_spaces_false"
   ],
   "note": "False for outputs that are left out: `(, b) := g(x)` becomes `( , b) := g(x)`, with a blank after the bracket and before the comma (C66_spaces_false). C66_spaces_partial: this is the only exception, i.e. the promise holds unless the token is a comma after `(` or after another comma, and there is a blank (or a line break) in these cases."
  },
  {
   "property": "C67",
   "status": "proved",
   "theorems": [
    "Mofmt.C67_beginning",
    "Mofmt.C67_cases"
   ],
   "note": "It says where the exception of C09 (empty first lines) occurs: only before `final`, and before comments above `final` or `within`."
  },
  {
   "property": "C68",
   "status": "partial",
   "theorems": [
    "Mofmt.C68_blocks_partial",
    "Mofmt.C68_classes_partial",
    "Mofmt.C68_case",
    "Mofmt.C68_blocks_false"
   ],
   "note": "C68_blocks_partial gives the exact level including the shift by wrapped left-hand sides before the keyword; C68_classes_partial is for classes without wrapped left-hand sides. Without that condition alignment is false of the code (C68_blocks_false; the cause is C11)."
  },
  {
   "property": "C69",
   "status": "partial",
   "theorems": [
    "Mofmt.C69_all_or_panic",
    "Mofmt.C69_production_partial",
    "Mofmt.C69_read_back_partial",
    "Mofmt.C69_grammatical_partial",
    "Mofmt.C69_case",
    "Mofmt.C69_trailing_false",
    "Mofmt.C69_left_over"
   ],
   "note": "C69_all_or_panic is unconditional. The others need a tree that conforms to the grammar; C69_grammatical_partial gives this condition for all texts that C50 covers. It is false for accepted texts in general: `a,` as an expression list is accepted without errors, but pretty_print panics (C69_trailing_false)."
  },
  {
   "property": "C70",
   "status": "partial",
   "theorems": [
    "Mofmt.C70_level",
    "Mofmt.C70_notes_partial",
    "Mofmt.C70_case",
    "Mofmt.C70_notes_false"
   ],
   "note": "C70_level is unconditional: it gives the level relative to the production, including what wrapped left-hand sides leave behind. C70_notes_partial is for elements, equations and statements without wrapped left-hand sides; without this condition it is false of the code (C70_notes_false; the cause is C11)."
  },
  {
   "property": "C71",
   "status": "partial",
   "theorems": [
    "Mofmt.C71_expressions",
    "Mofmt.C71_items_partial",
    "Mofmt.C71_case",
    "Mofmt.C71_items_false"
   ],
   "note": "C71_expressions is unconditional. C71_items_partial excludes expressions after the wrapped left-hand side of an equation or a statement; for these it is false of the code (C71_items_false; the cause is C11)."
  },
  {
   "property": "C72",
   "status": "partial",
   "theorems": [
    "Mofmt.C72_local_partial",
    "Mofmt.C72_text_partial",
    "Mofmt.C72_case",
    "Mofmt.C72_leftover_false"
   ],
   "note": "Proved for items from which equally many indentations are left over (usually none; see C11 for when some are left over), if the new item does not begin with `end` or `initial`, which the parser does not accept at the beginning of an equation or statement. It is false otherwise: behind an equation with a wrapped left hand side the rest of the file is printed deeper (C72_leftover_false)."
  },
  {
   "property": "C73",
   "status": "partial",
   "theorems": [
    "Mofmt.C73_insert_partial",
    "Mofmt.C73_delete_partial",
    "Mofmt.C73_case",
    "Mofmt.C73_leftover_false"
   ],
   "note": "Proved for items from which no indentation is left over; an inserted item must not begin with `end` or `initial`. It is false for other items (C73_leftover_false). An item before the first one of a list, and the only item of a list, are not covered."
  },
  {
   "property": "C74",
   "status": "proved",
   "theorems": [
    "Mofmt.C74_renamed",
    "Mofmt.C74_case"
   ],
   "note": "Comments are covered as far as the file prints them: C05 and C30 tell where. Texts with line ends (strings, block comments) may be replaced by texts with equally many."
  },
  {
   "property": "C75",
   "status": "proved",
   "theorems": [
    "Mofmt.C75_steps",
    "Mofmt.C75_parsed",
    "Mofmt.C75_tree",
    "Mofmt.C75_case"
   ],
   "note": "A step is a statement, a condition in it, an enter, an exit, a look-ahead, an advance or a message (Spec/Work.lean); the time of a single step (pushing to a vector, formatting a message) is not modelled. The formatter's work is not counted."
  },
  {
   "property": "C76",
   "status": "proved",
   "theorems": [
    "Mofmt.C76_swap",
    "Mofmt.C76_line",
    "Mofmt.C76_expression",
    "Mofmt.C76_case",
    "Mofmt.C76_description_false"
   ],
   "note": "`C76_swap` is more general: for parts of any number of lines that look the same from outside (`Looks`: same first and last line, wrapped or not, same left over indentations, conditional expression on several lines or not, with or without descriptions); `C76_line` is for parts on one line; `C76_expression` for the texts. The condition about descriptions is necessary: if one is added, the arguments around it are put on lines of their own (`C76_description_false`)."
  },
  {
   "property": "C77",
   "status": "proved",
   "theorems": [
    "Mofmt.C77_positions",
    "Mofmt.C77_markers",
    "Mofmt.C77_levels",
    "Mofmt.C77_output",
    "Mofmt.C77_overflow",
    "Mofmt.C77_quadratic",
    "Mofmt.C77_case"
   ],
   "note": "Positions follow from C17; the markers are counted by a potential argument over the command language of the formatting functions, whose bounds (5 for a token, 6 for a subtree, 2 for the rest, at most one call for a child) are checked for all 88 functions; the lower bound is a family of nested classes, for which lexing, parsing and layout are proved for all n. Stack depth is not modelled."
  },
  {
   "property": "C78",
   "status": "partial",
   "theorems": [
    "Mofmt.C78_any",
    "Mofmt.C78_calls",
    "Mofmt.C78_nesting_partial",
    "Mofmt.C78_formatter",
    "Mofmt.C78_false",
    "Mofmt.C78_case"
   ],
   "note": "False for lists in `{ }` and for arguments of functions: the functions that read and format them call themselves for the rest of the list, so that a flat list of n numbers needs n nested calls (C78_false, for every n). C78_nesting_partial is exact up to constants: the height of the tree is at most 24 times the nesting plus the number of commas of such lists on the way, and at least either of them. C78_calls: the parser's calls are as deep as the tree is high, or up to two deeper. C78_formatter: those of the formatter are at most as deep. C78_any bounds the parser for all texts."
  },
  {
   "property": "C79",
   "status": "proved",
   "theorems": [
    "Mofmt.C79_same",
    "Mofmt.C79_class",
    "Mofmt.C79_case"
   ],
   "note": "C79_class derives that the new file is accepted. Parts whose layout depends on their surroundings (operands of a wrapped expression, lists in brackets that are broken because of the brackets) are excluded by selfContained."
  },
  {
   "property": "C80",
   "status": "proved",
   "theorems": [
    "Mofmt.C80_tree",
    "Mofmt.C80_file",
    "Mofmt.C80_least",
    "Mofmt.C80_quadratic",
    "Mofmt.C80_case"
   ],
   "note": "Work is counted on the model of the formatting functions: statements, conditions, trees and tokens visited by start(), end(), is_multiline(), contains() and the scans for brackets, and comments passed. The time of the allocator and of copying texts is not counted."
  },
  {
   "property": "C81",
   "status": "proved",
   "theorems": [
    "Mofmt.C81_lexer",
    "Mofmt.C81_run",
    "Mofmt.C81_order",
    "Mofmt.C81_case"
   ],
   "note": "Work is counted by functions that follow the code (Spec/LexWork, Spec/Work, Spec/Effort); copying the text of a token and comparing a word with a keyword count as one step each."
  },
  {
   "property": "C82",
   "status": "partial",
   "theorems": [
    "Mofmt.C82_swap_partial",
    "Mofmt.C82_case",
    "Mofmt.C82_leftover_false"
   ],
   "note": "For items from which no indentation is left over, as measured by the specification. That the condition is needed is shown by C82_leftover_false: with a wrapped left hand side of an equation the items behind it are printed deeper. Not covered: the first item of a list, because the output in front of it depends on the keyword of the section."
  },
  {
   "property": "C83",
   "status": "proved",
   "theorems": [
    "Mofmt.C83_says",
    "Mofmt.C83_token",
    "Mofmt.C83_place",
    "Mofmt.C83_case",
    "Mofmt.C83_late"
   ],
   "note": "The stuck message is modelled by an interpreter that keeps the state at a panic (Model/Crash.lean), proved to give the same results as the interpreter used everywhere else. C83_late shows that nothing can be said in the other direction."
  },
  {
   "property": "C84",
   "status": "proved",
   "theorems": [
    "Mofmt.C84_order",
    "Mofmt.C84_reports",
    "Mofmt.C84_apart",
    "Mofmt.C84_locked",
    "Mofmt.C84_case",
    "Mofmt.C84_unfinished_false"
   ],
   "note": "For runs that finish with an exit code. That the order matters for the others is shown by C84_unfinished_false. C84_reports assumes distinct files in format mode, because the second of two paths to the same file rewrites what the first one has written."
  },
  {
   "property": "C85",
   "status": "partial",
   "theorems": [
    "Mofmt.C85_items_partial",
    "Mofmt.C85_text_partial",
    "Mofmt.C85_case"
   ],
   "note": "For items from which no indentation is left over, as measured by the specification; that the condition is needed is shown by C82_leftover_false. The items stand behind another item of the list: the first item is not covered, because the output in front of it depends on the keyword of the section. Items whose tokens end with a character that is not ASCII are excluded (C06)."
  },
  {
   "property": "C86",
   "status": "proved",
   "theorems": [
    "Mofmt.C86_lines",
    "Mofmt.C86_case"
   ],
   "note": "Holds of the comments that are printed; which ones these are is the subject of C05 and C06. The lines are those of the lexer, which are exact (C17). Several comments on a line of their own get a line each, as C86_case shows."
  },
  {
   "property": "C87",
   "status": "proved",
   "theorems": [
    "Mofmt.C87_replace",
    "Mofmt.C87_case"
   ],
   "note": "The condition on `end` and `initial` matters only where an equation begins (C50); it is stated for all parts for simplicity, and it is not needed if the old part begins with the same token."
  },
  {
   "property": "C88",
   "status": "partial",
   "theorems": [
    "Mofmt.C88_same_code_partial",
    "Mofmt.C88_case",
    "Mofmt.C88_false"
   ],
   "note": "Proved for files in which line comments end their lines, in particular for all files without lone carriage returns (C01_no_lone_cr). False in general: with a line comment that ends with a carriage return, followed by a block comment that contains an element, a class without elements has the same output as a class with one (C88_false); formatting the first file silently adds the element to it."
  },
  {
   "property": "C89",
   "status": "proved",
   "theorems": [
    "Mofmt.C89_order",
    "Mofmt.C89_case"
   ],
   "note": "The list as a whole need not be in order: a message of the lexer may name a later place than the first of the parser (C89_case)."
  },
  {
   "property": "C90",
   "status": "proved",
   "theorems": [
    "Mofmt.C90_options",
    "Mofmt.C90_case"
   ],
   "note": "Only the first argument is looked at as an option (C36)."
  },
  {
   "property": "C91",
   "status": "proved",
   "theorems": [
    "Mofmt.C91_check_predicts",
    "Mofmt.C91_case"
   ],
   "note": ""
  },
  {
   "property": "C92",
   "status": "proved",
   "theorems": [
    "Mofmt.C92_name_mentioned",
    "Mofmt.C92_content",
    "Mofmt.C92_case",
    "Mofmt.C92_content_case"
   ],
   "note": ""
  },
  {
   "property": "C93",
   "status": "partial",
   "theorems": [
    "Mofmt.C93_mark_reported_partial",
    "Mofmt.C93_mark_panics",
    "Mofmt.C93_run_panics",
    "Mofmt.C93_case"
   ],
   "note": "False of the code: if a token or a comment follows the mark at once, as in nearly every file with a byte order mark, the lexer panics, because positions are counted as if every character had one byte (C93_mark_panics), and so does the run (C93_run_panics). It holds if white space follows the mark."
  },
  {
   "property": "C94",
   "status": "partial",
   "theorems": [
    "Mofmt.C94_white_partial",
    "Mofmt.C94_only",
    "Mofmt.C94_emptied",
    "Mofmt.C94_case"
   ],
   "note": "The first part is false of the code, for every such file: comments are only written next to tokens, so a file without tokens is replaced by a single line end (C94_emptied). The other two parts hold."
  }
 ]
}