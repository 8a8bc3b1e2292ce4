# Design

Target: libxmq/xmq, C sources in /repo/src/main/c (xmq.c and parts/*.c), read as text and never built or run.
Everything under lean/Verif is a Lean 4 model written by hand from that text, specifications, and theorems about the model.

* `Verif/Basic.lean`: bytes, list helpers.
* `Verif/Model/*`: the code, function by function; every definition cites its file and lines.
* `Verif/Spec/*`: what the properties mean, written without the model (RFC 3629, RFC 8259, dedenting, tokens, values, ...).
* `Verif/Lemmas/*`: proofs about the model.
* `Verif/Props/*`: the property theorems `Xmq.Props.Cnn_...`, with concrete cases beside them.
* `MANIFEST.json` lists the theorems per property; `seeded/LOG.jsonl` the wrong programs they were tested against.

## Conventions of the model

* Functions are total and computable. A C buffer `[start, stop)` is the list of its bytes. What the code would do outside of
  its buffers, a failing `assert`, a use of NULL and an endless loop are outcomes of their own (`none`, `Res.ub`, `.abort`,
  `.hang`, `.outside`), so that their absence can be stated and proved, or refuted.
* Loops that consume input through other functions take fuel; a theorem about termination says that some fuel suffices, one about
  an endless loop that no fuel does.
* Machine integers: `int`/`size_t` are `Nat` or `Int`; where overflow can be reached it is modelled (C35, C46) or the bound is in
  the theorem (C37).
* A property that is false of the code is stated as a `def ... : Prop`, refuted by a theorem `Cnn_false...` with a concrete
  witness, and proved with a guard that excludes the witnesses in a theorem with suffix `_partial`. What is missing is exactly the
  excluded inputs; the guards are definitions in `Verif/Spec`.

## Plan per property

- **C01** UTF-8 encoding is decodable: encode_utf8/decode_utf8 as functions Nat -> List Byte / List Byte -> result; round trip by case split on the four lengths and bit arithmetic turned into div/mod.
- **C02** UTF-8 decoding is safe and canonical: same model; bounds by case analysis; canonical form false for overlong input (witness), partial theorem for shortest forms. The condition is exact (Props/EscapeExact, by lengths).
- **C03** Quote delimiter is always long enough: count_necessary_quotes and eat_xmq_quote over lists; invariant: no run of quotes in the text is as long as the delimiter.
- **C04** Comment delimiter is always long enough: count_necessary_slashes and eat_xmq_comment_to_close; invariant on runs of slashes after an asterisk.
- **C05** Bare values are read back exactly: is_xmq_text_value / is_safe_value_char with count_whitespace; the 3-byte look-ahead at the end of the value is the delicate point.
- **C06** xmqCompactQuote is lossless: print_value_internal_text in compact mode -> bytes, then parser + un_quote + entity decoding -> bytes; induction over the segmentation.
- **C07** Compact output is a single line: same model of the compact printer; induction over output.
- **C08** The xmq parser terminates on every input: parser as total function with an explicit 'hang' outcome for a loop iteration that consumes nothing; false in general (witness), partial theorem with exact guard.
- **C09** Tokens cover the input exactly: parser model emits tokens; invariant: emitted ++ rest = input.
- **C10** Token positions are true: same invariant extended by line/column.
- **C11** Accepted documents are balanced: same model; nesting by induction.
- **C12** Unclosed constructs are rejected: consequence of the parser model: lemmas per construct.
- **C13** Single line quotes are never altered: xmq_trim_quote over lists.
- **C14** Multi line quotes survive indentation: printer of quote lines for a given column, then xmq_trim_quote; induction over lines.
- **C15** Trimming stays inside its buffers: index based model of xmq_trim_quote with an explicit out-of-bounds outcome; false for CR-only line ends (witness), partial for LF-only texts.
- **C16** Re-indenting a quote does not change it: xmq_trim_quote over lists of lines.
- **C17** XML comment escaping is lossless and safe: escape/unescape over lists; induction. Comments ending in a dash are a finding. Exact conditions in Props/EscapeExact.
- **C18** Content detection is decided by the first significant bytes: decision logic over lists.
- **C19** Entities written by the printer are read back: decimal printing and strtol model; induction over digits.
- **C20** The hash map is a map: array of buckets with chains; refinement to Key -> Option Val.
- **C21** The stack is a LIFO that can be drained from the bottom: linked list with top and bottom; refinement to List.
- **C22** The vector is a growable array: array with capacity; refinement to List plus capacity invariant.
- **C23** The memory buffer is append only: buffer with capacity; refinement to List Byte plus capacity invariant.
- **C24** String sorting sorts: array Lomuto partition as in the code; sorted and permutation.
- **C25** C quoting round trips: quote/unquote over lists; negation with witness, partial theorem. What remains of any text is computed byte by byte (Props/Exact), from which the exact condition follows.
- **C26** JSON strings round trip: quote_as_c then eat_json_quote.
- **C27** JSON number recognition: is_jnumber as state machine, compared with a small grammar; negation both ways, partial. The language taken for numbers is described exactly in Props/JsonNumberExact, by induction over the states.
- **C28** The JSON parser terminates without aborting: tokenizing model of parse_json with hang/abort outcomes; negation, partial.
- **C29** Unicode category lookup is set membership: binary search over arrays with ordering invariant; table sortedness checked over the whole finite table.
- **C30** Compact documents round trip: tree model, compact printer, parser, tree builder; structural induction.
- **C31** Pretty printed documents round trip: tree model, pretty printer, parser, tree builder; structural induction.
- **C32** Escaping for HTML and TeX is faithful: per byte maps; induction.
- **C33** A byte order mark is transparent: decision logic.
- **C34** JSON index suffixes are removed exactly: trim_index_suffix over reversed lists.
- **C35** Byte parsing of integers is exact: decision logic on numerals.
- **C36** Comment text is recovered: print_comment_node, eat comment, xmq_un_comment.
- **C37** Collapsing text keeps the characters: fold over nodes; length bound.
- **C38** Trimming text nodes is stable: trim_text_node.
- **C39** Quote stripping is exact: xmq_un_quote on tokens accepted by eat_xmq_quote.
- **C40** Error position lookup: find_line_col: column off by one after a newline (witness), partial.
- **C41** The parser reads only its buffer: the lexer model returns which position beyond the terminating NUL would be read; false in two cases (witnesses), which are characterised.
- **C42** Accepted entity references are complete: invariant of the parser on the tokens it delivers; false for lower case hexadecimal names.
- **C43** Meaning of multi line quotes: xmq_trim_quote refined to a line based specification `dedent` (Spec/Dedent).
- **C44** A requested content type is honoured: decision logic of xmqParseBufferWithType over the detection model.
- **C45** Repeated JSON keys are distinct and read back: counters of json_print_object_nodes, injectivity of the suffix, trim_index_suffix. Exact condition in Props/JsonKeysExact.
- **C46** Integers fetched from a document have the written value: strtol/strtoll on the numerals, grammar of numerals in Spec/Numbers. Props/NumberExact: exactly which numerals are read.
- **C47** A character set and its complement partition the characters: ixml charsets over the used-character table.
- **C48** Scanning ixml content stays inside its table: decode loop writing a table of used code points; false for malformed UTF-8.
- **C49** JSON survives the conversion to a document and back: parse_json and its callbacks, json_print_*; RFC 8259 as an inductive relation between values and texts; mutual structural induction over values.
- **C50** Windows line endings: a simulation relation `Crlf s t` between a text and the text with CR LF replaced by LF; every function of the lexer, the parser, the tree builder and xmq_trim_quote preserves it (Lemmas/Crlf, CrlfParse, CrlfBuild).
- **C51** Numeric character references: the digits are specified by an inductive relation `Spells`; strtol and encode_utf8 in the builder.
- **C52** An ixml grammar accepts the language it describes: syntax (`W`) and meaning (`Out`) of ixml as inductive relations in Spec/Ixml; the reader is shown to produce the rules of a compositional translation (Lemmas/IxmlLex to IxmlGrammar), which is shown to represent the grammar (IxmlNames, IxmlEnc, IxmlAll) and to have the same language (IxmlSem). `WGrammar false` is the syntax, `WGrammar true` leaves out what the reader does not understand.
- **C53** An ixml parse gives the document the marks ask for: same relation `Out`, which also says what is added to the document; false because the mark read last is kept in one variable.
- **C54** Reading an ixml grammar always answers: the result of every function is shorter than its input (Lemmas/IxmlEnds); false for lookahead over an unclosed comment and for several assertions.
- **C55** A grammar that was read can be parsed with: the rules and checks of yaep.c as functions over lists (Model/Yaep), derivations as an inductive relation (Spec/Cfg); loops are cycles of steps in which all but one symbol vanish (Lemmas/Cfg, YaepLoop). False for repeated expressions that can be empty and for the name `error`.
- **C56** What the parser knows about a grammar is exact: least fixpoints (Lemmas/YaepSets: the loops only add, every addition is justified, nothing is left to add), completeness by induction over derivations (Lemmas/YaepFlags, YaepFirst).
- **C57** The Earley parser accepts exactly the language: sets of dotted rules with lengths as in yaep.c (started, not yet started, initial; Model/Earley). Each set satisfies `SetOk` (Lemmas/EarleySet), all sets together `Chart` (EarleyChart). Soundness by induction over sets (EarleySound), completeness along a derivation (EarleyComplete: `walk`, `expected`) under `Lossless`, which follows from the absence of `Clash` (EarleyGuard).
- **C58** The parse tree derives the text, and ambiguity is reported truthfully: the recursion of `build_parse_tree` follows items of the chart (EarleyTree: `build_sound`), has enough steps because no symbol derives itself (EarleyBuild: `build_ok`), takes all candidates into account (`build_unique`), and a second candidate gives a second tree (EarleyAmbiguous).
- **C59** A syntax error is reported at the first impossible character: every token that was consumed was expected (`Taken`, `viable`); the sets depend only on the tokens read so far (`parseLoop_prefix`), so another text with the same beginning fails at the same place.
- **C60** Reading a text with an ixml grammar gives the document that ixml prescribes: `parseBuffer` (Model/IxmlParse) joins the models of C48, C52, C55 and C57; trees of the Earley parser and trees with names and marks correspond (`parses_derives`, `derives_parses`), and the rules made from a written grammar meet the conditions of C57 (Lemmas/IxmlFit).
- **C61** An ixml grammar can be used for several texts: the state kept between two calls is part of `parseBuffer`; false, with a description of what happens instead.
- **C62** Names belong to the namespaces which the declarations in scope say: the syntax of documents over tokens is an inductive relation (Spec/Syntax: `Doc`), the meaning a recursive function carrying the declarations in scope (Spec/Namespaces: `resolve`). The builder works on a heap of namespace objects which later callbacks fill in (Model/NsBuild). The parser delivers only tokens of documents (Lemmas/SyntaxDoc), `Doc` is unambiguous (SyntaxUnique), and a run of the callbacks over a document leaves a heap in which the nodes look like its meaning (NsRun to NsTop: induction over `Doc`, invariant on the heap and on the prefixes known).
- **C63** Processing instructions: the same run (NsDoc: `run_pi`).
- **C64** Namespaces, processing instructions and the doctype survive printing as xmq: the printer over nodes that point into a heap of namespaces (Model/NsPrint); its output is read as the tokens of the written document (NsEmit, NsEmitTree: same method as C30 and C31), these tokens mean the document in the sense of C62 (NsFlat, NsUnflat), and the meaning of a bound document is the document itself (NsBound).
- **C65** Log lines: Model/LinePrintf builds the line argument by argument (each value already formatted by printf); the line is read with the parser and builder of C30, by induction over the fields with the lemmas on compact quotes for arbitrary continuations (Lemmas/LinePrintf).
- **C66** Lines of paths and C strings: the meaning of C string literals is an inductive relation with the greedy hexadecimal escape of C11 (Spec/Clines: `CChars`, unambiguous), the leaves of a document a function; the printer (Model/Clines) follows them by induction over the tree.
- **C67** Text output: equal to the texts among all descendants in document order, by induction. Exact conditions in Props/Exact.
- **C68** Tables of the Earley parser: Model/EarleyTables has the pool of sets (addresses are positions), the table of transitions with its three slots per key and the check of origins. Invariant: every remembered result is what computing at its place gave; the computation only looks at the sets in which items begin (`completeLoop_congr`).
- **C69** Trimming a document: `Trims` (Spec/DocTrim) says which documents may come out, by what is to be seen of each text line by line. Lemmas/DocTrim shows that each step of `dedent` (the meaning of the trimming, C43) keeps that; then induction over the tree.
- **C70** Preparing a document for XML and HTML: the relation `StyleDecoded` (Spec/Fixup) says what is expected inside `style` and `script`; induction over the tree with C17 for the comments. The contents of entities are a parameter.
- **C71** Colours: Model/Colour is the printer with the strings of a theme (`Dress`); the plain printer is Model/NsPrint. Lemmas/ColourWalk lifts any relation between the two that the basic functions keep to whole documents; Lemmas/Colour does so for readers that skip the marks (`Reading`). The readers (Spec/Colour: `ansiText`, `pageText`) know nothing of the printer.
- **C72** Closed elements: the same lifting, with the number of open elements as invariant (`Leaves`, `Nested` in Lemmas/ColourNest); the reader `openTags` keeps a stack of names.
- **C73** Highlighting: Model/Highlight writes the tokens of C09 with the strings of the theme. Spec/Highlight has readers for terminals (with C71) and for HTML that give each visible byte with its colour, and a table of the colours per kind of token; induction over the tokens, and C09 for the source.
- **C74** Token listing: `ListingFor` (Spec/Listing) says what a listing of tokens is, with the C literals of C66; it can be read in one way only (`ListingFor.unique`), by searching the next quotation mark without backslash. C09 and C10 give the source and bound the numbers.
- **C75** Documents through JSON: the documents are described in Spec/JsonDoc without the printer. The printed text is shown to be the text of a JSON value (`jdocVal`, Lemmas/JsonDoc) by induction over the tree with the index counters as invariant; the parser is known to accept it (C49); the callbacks are folded back to the document by a second induction. Reading is unique since the outcome does not depend on the fuel.
- **C76** Implicit roots: Model/Root adds the test of `element_last` to the builder of C62. A simulation over the tokens relates the stacks without and with the root (`flat` and `deep` in Lemmas/Root); that attributes never reach the document node is read off the grammar of tokens of C62 (`neutral_doc`). The expected document is `expectRoot` in Spec/Root.
- **C77** Comments beside the root in JSON: Model/JsonSides has the printer with the two stacks of comments and the builder with `root_found`; both agree with those of C75 where there are no such comments (`C77_writes_alike`, `C77_reads_alike`). Inside of the root nothing is taken from the stacks (`nodes_inside`), so the lemmas of C75 carry over; the two lists of comments are added by induction.
- **C78** Longest tokens: `EndsAt` (Spec/Tokens) says for each kind what may follow; it is part of the step relation `StepBy` (Lemmas/Walk) and is shown for every function of the parser (Lemmas/ParserStep).
- **C79** Characters are not cut: valid UTF-8 is a prefix code (`ValidUtf8.cancel`, from C01). A token is valid because it is ASCII, ends in an ASCII byte or is followed by a byte that begins a character, which C12 and C78 tell; induction over the tokens.
- **C80** Colours: Model/ColourDef has the reader and the three writers. Spec/ColourDef has the documented form, a terminal that keeps bold, underline and colour (`sgr`), and style sheets as an inductive relation that can be read in one way (`C80_sheet_unique`). Exact description of what is read by cases; the writers by reading their output, the numbers with C74.
- **C81** Shell commands: Model/Shell is the loop over the command, which overwrites names in place, with the environment it collects. Spec/Shell cuts a command into pieces (an inductive relation, shown to be a partition in exactly one way); induction over the pieces, as what is overwritten has no dollar sign in it.
- **C82** Entities: Spec/EntityCmds flattens a document into what is met from beginning to end, texts byte by byte; the commands are then a filter or a flat map over a list. Induction over the tree (by size, as the loop over siblings joins texts). `C82_determined` shows that what is met determines a document in which texts are not divided.
- **C83** Loading: the operating system is a list of answers over which all theorems quantify; the buffer is that of C23, its invariant gives the contents. `Complete` (Spec/Load) says by sums alone when everything has come.
- **C84** Statistics: Spec/Statistics makes a document the bag of its nodes and attributes; every number is the length or total length of a filtered bag. The accumulators are shown to add these sums (mutual induction). `Shows` is the form of the new document.
- **C85** Pager: Model/Pager has the two loops over the text as automata over bytes. `couple` runs both at once: the rows and columns of the drawing are never ahead (in lexicographic order) of those of the scrolling, whatever the escape sequences; from this follows that nothing is lost. Going back by cases.
- **C86** Error messages: Model/ErrorMessage computes the remembered places from the tokens that were given before the error. `Tells` (Lemmas/ErrorPlace) says for each error what is at the end or among the tokens, shown for every function of the parser; with the places of C12 the reported line and column are those of the byte. `LineAt` and `picture` (Spec/ErrorMessage) are the line and the mark; that the last open parenthesis is not closed follows from the nesting of C15.
- **C87** Command line: Model/CmdLine has the table of commands, the options of every group, the loop over the arguments and the loop over the commands. Spec/CmdLine says for every command what its arguments mean (`Understood`: a setting is what the last argument about it says) and how a line is completed (`Completed`). Each option is one step, induction over the arguments (`Took`), then over the commands with an invariant (`GoodCmds`). Running is over arbitrary documents (`Sem`).
- **C88** Editing documents: Model/EditDoc has documents in memory (`Cell`, freed nodes are `gone`) and the loops of the commands. `marks g` (Lemmas/EditDoc) is the document with the places of `g` freed; freeing one more place keeps this form as long as nothing at or above it has been freed (`Alive`), which gives both directions. `without`, `chosen`, `piece`, `Joined` (Spec/EditDoc) say what is expected.
- **C89** No merging: Model/NoMerge has the callbacks with `merge_text` off. `merged` (Spec/NoMerge) decodes and joins a whole document; `stackOf` (Lemmas/NoMerge) does it to the stack of the builder, and each callback commutes with it, so induction over the tokens. The other direction uses a decoding that is always defined.
- **C90** Looking up values: Model/Lookup has the loop over what was found and the functions for values; Spec/Lookup has the value of a node (string-value) and the calls of a callback. `C89_finished` says that texts of a document that was read do not meet, hence the first child is the whole value; numbers with C46.
- **C91** Tables of the Earley parser: Model/YaepHash has the entries as a list of empty, deleted and elements. Sizes are primes (Bertrand's postulate of Mathlib for the end of the search of a prime), so the steps of a search visit all entries (`hpos_surj`). Invariant `Holds`: the elements are those of a list (Spec/YaepHash), each is reached over entries that are not empty, and there is an empty entry.
- **C92** Characters and terminals: Model/YaepCodes has the vector with cells that were never written; the three outcomes of a search are characterised exactly (`C92_find`), then reading by induction over the text.
- **C93** Sets of terminals and items: Model/YaepBits has words of 64 bits and the vector of generations. `StandsFor64` relates words and sets (and says that no bit behind the last terminal is set), each function keeps it; for items: no generation is greater than the current one, and the pairs with the current one are those inserted since. Spec/YaepBits has sets as predicates.
- **C94** Colours: Model/TermTheme has the loop that reads the answer of the terminal, the `sscanf` and the choice; the reading of an answer by induction over it, the rest by cases. Spec/TermTheme has the answer of a terminal and what bright means.
- **C95** References for characters: Model/HtmlNames has the tables of names and the choice between name and number, Spec/HtmlNames the entities of HTML 4 and what a reference stands for there. The tables are compared by evaluation, the numbers with the lemmas about `%d`.
- **C96** Before JSON is written: Model/JsonFixup has the recursion over the document around `collapseText` (C37). `collapse_unchanged` says exactly when an element is left alone; the rest by induction over documents. `Joins` is the relation between the two documents.
- **C97** Handing over the output: Model/Deliver has the number of bytes skipped, the conversion of the length to int, short writes (`room`) and the name of the file for the browser. The declaration that libxml2 writes is assumed. Equalities of lengths give the exact conditions.
- **C98** Stacks of objects and objects of variable length: Model/YaepStack has the chain of segments, blocks given back, and memory as a function. `Good` is the invariant: the first segment never gets smaller than the initial length (used when the stack is emptied), finished objects are in front of the top object, and a segment is given back only if nothing but the top object is in it. Spec/YaepStack says what a user asks for.
- **C99** Giving back a parse tree: Model/FreeTree has the two walks over a heap of cells. `Owns` describes trees together with the order in which they are given back; `reduce_ok` shows that the first walk makes such a tree out of what was not visited before (`Res`), `sweep_owns` that the second gives it back. Induction over the rank of a node, which exists as there are no cycles.
- **C100** All parses in one document: Model/Forest has the chain of alternatives made by place_translation and the making of the document from it. Spec/Forest: `Parse` chooses one alternative in the forest, `Chosen` one child of each AMBIGUOUS in the document; the theorem says that both choices give the same documents. Mutual induction over the forest.
- **C101** Options for trimming: Model/TrimOptions has the flags, the option for libxml2 and the decision after parsing. `TrimWanted` is what a user expects; the exact condition under which the program agrees is proved, and by induction over documents that blanks left out by the parser do not matter.
- **C102** Keys of the pager: Model/Keys has the reading of keys and the rounds of the pager. Spec/Keys lists what the terminal sends for a key and what it means. Induction over the keys pressed.
- **C103** Commands quote-c and unquote-c: Model/QuoteCmd on top of Model/CQuote. The proof reduces to C25 by showing that what stands behind the closing quote is not looked at (induction over the quoted text).

## Which parts of the code are modelled

| Part of the code | Model |
|---|---|
| parts/text.c: UTF-8 encode/decode, peek_utf8_char, name and whitespace classes | Model/Utf8, Model/Text |
| parts/text.c: C quoting, find_line_col, Unicode tables and lookup | Model/CQuote, Model/LineCol, Model/Unicode |
| parts/xmq_internals.c: count_whitespace, increment, safe value characters, needs_escape | Model/Text, Model/Lexer |
| parts/xmq_parser.c: all of the tokenizer/parser (quotes, entities, comments, names, attributes, compounds, bodies) | Model/Lexer, Model/Parser |
| xmq.c callbacks do_*: building the tree, xmq_un_quote, xmq_un_comment | Model/Builder, Model/Delimiters |
| xmq.c 2112-2664: the same callbacks with namespaces, processing instructions and doctype | Model/NsBuild |
| xmq.c: xmq_trim_quote, find_line, trim_text_node | Model/Trim, Model/TrimNode |
| parts/xmq_printer.c: values, quotes, entities, comments, attributes, elements, compact and pretty | Model/Delimiters, Model/Printer, Model/Tree |
| xmq.c: escape/unescape of XML comments, HTML and TeX escaping | Model/Escape |
| xmq.c: xmqDetectContentType, skip_any_potential_bom, the dispatch of xmqParseBufferWithType | Model/Detect |
| parts/json.c: strings, numbers, keys, parser, printer | Model/CQuote, Model/Json, Model/JsonKeys, Model/JsonPrint, Model/JsonSides |
| parts/xml.c: accessors, xml_collapse_text, decode_entity_ref | Model/Tree, Model/Collapse |
| parts/core.c, xmqGetInt/xmqGetLong | Model/Numbers |
| parts/yaep.c: hash tables, hashes and equalities (1617-1842, 3056-3091, 4443-4463) | Model/YaepHash |
| parts/yaep.c: terminals by code, reading of the text (3129-3156, 3276-3305, 3760-3773, 5394-5404) | Model/YaepCodes |
| parts/yaep.c: sets of terminals and of items (2256-2259, 3402-3534, 4029-4093) | Model/YaepBits |
| xmq-cli.c: choice of the theme for a terminal (1256-1445, 4018-4031) | Model/TermTheme |
| parts/entities.c and its use (parts/xmq_printer.c 626-673) | Model/HtmlNames |
| parts/json.c: texts joined before writing (1601-1645) | Model/JsonFixup |
| xmq.c 2958-3003, xmq-cli.c 1981-2043, 3085-3094, 3199-3241: output handed over | Model/Deliver |
| parts/yaep.c 628-1182, 1895-2133: stacks of objects, objects of variable length | Model/YaepStack |
| parts/yaep.c 7342-7497: giving back a parse tree | Model/FreeTree |
| parts/yaep.c 6399-6433, xmq.c 4442-4592: alternatives and the document of all parses | Model/Forest |
| xmq-cli.c 1578-1601, xmq.c 3922-3971, 4098-4131: whether a document is trimmed | Model/TrimOptions |
| xmq-cli.c 3063-3073, 3158-3196, 3478-3561: keys of the pager | Model/Keys |
| xmq-cli.c 2093-2147: quote-c and unquote-c | Model/QuoteCmd |
| parts/stack.c, vector.c, membuffer.c, hashmap.c, quicksort_strings.c | Model/Stack, Model/Containers, Model/HashMap, Model/Sort |
| parts/ixml.c: scanning of content, character sets | Model/Charset |
| parts/ixml.c: grammar reader and construction of rules (197-1490, 1564-2259); xmq.c 4444-4592: document from a parse tree | Model/Ixml |
| parts/xmq_printer.c: names with prefixes, declarations, processing instructions, doctype (288-499, 859-950) | Model/NsPrint |
| yaep/src/yaep.c: rules, checks, FIRST, FOLLOW, lookahead sets (1658-1702, 2720-3180) | Model/Yaep |
| yaep/src/yaep.c: Earley sets, parse list, one parse tree, flag of ambiguity (1658-2140, 3300-3977, 4508-5184); xmq.c 4606-4641 | Model/Earley |
| yaep/src/yaep.c: tables of sets, cores and transitions (1789-1891, 2113-2192, 3784-3977) | Model/EarleyTables |
| xmq.c: xmqParseBufferWithIXML (4594-4654) as a whole; parts/ixml.c 1444-1504, 1715-1868 | Model/IxmlParse |
| xmq.c: trim_node, xmqTrimWhitespace (3044-3082); fixup_html, fixup_comments (3240-3432) | Model/DocTrim, Model/Fixup |
| parts/utf8.c, parts/xmq_printer.c, parts/xmq_internals.c 271-343, xmq.c 169-598: the printer with a theme | Model/Colour |
| parts/colors.c (but getThemeStrings), parts/default_themes.c without the Windows table | Model/ColourDef |
| xmq-cli.c 2259-2300, 3243-3411 (for-each up to execve) | Model/Shell |
| parts/xmq_internals.c 13-132 and 343-382, xmq.c 651-659, 957-968, 1235-1245 (messages of errors) | Model/ErrorMessage |
| xmq-cli.c 435-650, 741-1203, 1446-1660, 1981-2043, 2764-2864, 3572-3803, 4022-4088 (command line) | Model/CmdLine |
| xmq-cli.c 2193-2257, 2301-2363, 2556-2588, parts/xml.c 289-303 (select, delete, add, add-root) | Model/EditDoc |
| xmq.c 1827-2042, 2112-2480 with `XMQ_FLAG_NOMERGE` | Model/NoMerge |
| xmq.c 3754-3909 (foreach, get string, int, long) | Model/Lookup |
| xmq-cli.c 2365-2509 (statistics), 2866-3060 and 3476-3557 (pager) | Model/Statistics, Model/Pager |
| xmq.c 4136-4255 (loading) | Model/Load |
| xmq-cli.c 2511-2546, 2590-2764 (delete-entity, replace-entity, substitute-entity, substitute-char-entities) | Model/EntityCmds |
| xmq.c: tokenize_TYPE (626-644), debug_token_TYPE (1563-1591), xmqTokenizeBuffer (911-986) | Model/Highlight, Model/Listing |
| xmq.c: xmqLinePrintf, xmqLineVPrintf, xmqLineDoc (4671-4960), with values after printf | Model/LinePrintf |
| xmq.c: text output and clines (2762-2923), text input (4003-4025), without namespaces | Model/Clines |

Not modelled, hence outside of every theorem:

* libxml2 (and its XML/HTML parsers, XPath, XSLT, its serialisation). What the model assumes of it is stated where it is used:
  `xmlAddChild` merges adjacent texts, `xmlNodeListGetString` concatenates, names and attribute names are kept as given.
* yaep.c: C52 and C53 speak about all parses of the given rules, C57 and C58 about the one that is found. The sharing of equal cores and sets and the
  cache of transitions are in C68 (hash tables are searched as lists there; that they may be is C91). Left out are the search for all parses (the document made of them is C100), costs, error recovery and lookahead level 2.
  The text of yaep/src/yaep.c is part of parts/yaep.c, which is compiled; line numbers are those of the former. A terminal without mark has mark 0 in the model; yaep.c 4653-4680 leaves
  `terminal.mark` of a freshly allocated node unset in that case. The limit of 1024 bytes of names of character sets is not modelled.
* malloc failing (but see Load), stdio, threads, the rest of the command line tool (xmq-cli.c), reading keys, the header and style sheet around HTML and TeX
  output, the parsing of themes (colours are in C71 and C72), rendering of source text by the tokenizer, logging.
* Namespaces, processing instructions and doctypes in C30 and C31 (they are in C64); quoted doctypes (parsed by libxml2) and second
  doctypes in C62 and C64; CDATA in documents; implicit roots except in C67 and C76; doctypes inside or behind elements; `merge_text` off except in C89, and `no_trim_quotes` on
  in the xmq tree builder.
* Texts with NUL bytes inside documents. (The C API passes NUL terminated strings.)

## Trusted base

* Lean's kernel (4.33.0). No `sorry`, `admit`, `native_decide`, `bv_decide` and no axioms of our own; `decide +kernel` is used
  for finite facts (all 256 bytes, the Unicode tables, concrete witnesses) and is checked by the kernel.
* The axioms `propext`, `Classical.choice` and `Quot.sound`; the table at the end gives them per theorem.
* That the model says what the C code does. It has been read against the text, not run against the program. Each definition cites
  the lines it models and says where it simplifies.
* The statements themselves: the definitions in Verif/Spec and the `def ... : Prop` of Verif/Props.

## What was found to be false of the code

Each of these is a theorem (refutation by witness) unless marked "(observed)".

1. `a(!)`: the attribute list parser loops forever; a tab in a body loops as well (C08).
2. Compact printing glues a bare value ending in `/`, `;` or `=` to what follows (C30).
3. A comment with `*/` or with blanks/newlines at line ends changes in compact printing (C30).
4. `xmq_unquote_as_c` drops `\\` and `\xHH`; `xmq_quote_as_c` reads beyond texts that are not UTF-8 and copies raw bytes behind a lead byte (C25).
5. `decode_entity_ref` gives 0 for hexadecimal references and for `amp` (C37).
6. ixml scanning writes out of its table for lead bytes F4..F7 (C48).
7. `find_line_col` gives column 0 directly behind a newline (C40).
8. `decode_utf8` accepts overlong forms (C02).
9. The parser reads `*buffer_stop` and beyond it in two situations (C41).
10. `xmq_trim_quote` reads outside of its region for lone carriage returns (C15).
11. XML comments ending in `-` are written unescaped; XML to XML loses a DLE behind a dash (C17).
12. JSON: `{` and a trailing comma at the end of the text loop forever; `[1` aborts (C28). `\/` is rejected, surrogate pairs are
    read as two characters, control characters are written as `\xHH` (C26). Numbers before a tab or CR and `0e5` are not recognised,
    `-012`, `1e5+3` and others are (C27).
13. JSON keys: a key ending in `[n]` is altered (C34); equal names of arrays give equal keys (C45); `{"a b":{}}` is written as
    `{{}}`, `{"_A":"x","b":1}` as `[1]`, `{"_":1}` as `{"":1}` (C49).
14. Detection: HTML behind a comment, negative numbers; an over-read (C18). A buffer of only a BOM (C33).
15. HTMQ and CLINES can never be requested (C44).
16. `xmqGetInt` on signed hexadecimal/octal numerals (C46).
17. Entity references without semicolon are accepted for lower case hexadecimal names (C42).
18. `xmqCompactQuote`: three quotes in a row, quotes only, a leading newline and space, tabs (C06); three quotes put a newline in compact output (C07).
19. The Unicode tables are truncated to 16 bits: wrong for code points above U+FFFF, categories overlap (C29); a character set can list a character twice (C47).
20. `trim_text_node` is not idempotent (C38).
21. Quotes over several lines: blanks before a newline are lost; with a quote at an edge the common indentation is lost and a
    newline at the other edge is doubled (C14).
22. Pretty printing: a text over several lines behind an attribute that ends in a character entity, or that is made of spaces, gets
    other indentation; an attribute of two quotes is a syntax error; a value ending in `=` swallows an entity reference behind it (C31).
23. Comments lose newlines and spaces at their edges (C36).
24. (observed) `stack_pop` leaves `bottom` dangling when the last element is popped; `xmq_quote_with_entity_newlines` does not
    terminate its result; `print_char_entity` counts `current_indent` twice; namespace hrefs are not escaped in JSON; an attribute
    `_` without value, and a number-like text beside other nodes in an array, make the JSON printer use NULL.
25. A reference above U+10FFFF such as `&#x110000;` in a document aborts the process (assertion in encode_utf8); `&#0;` is an empty
    text (C51).
26. A `//` comment whose last byte is a lone CR at the end of the input is read with a newline that is not there (C50).
27. (observed) `xmqLinePrintf` calls `vsnprintf` twice with the same `va_list` when the output has 1024 bytes or more; `collect_text`
    asserts on ambiguous parses and drops insertions inside attributes; `generate_charset_terminal_name` can overflow its buffer of
    1024 bytes.
28. Reading ixml grammars (C54): `a:["x"{` makes the lookahead in `ixml_skip_whitespace` loop forever; `a:~x.`, `a:b++.` and `a>:` fail
    assertions; (observed) `+#41` uses NULL; lookahead over `{{{{` is exponential.
29. Valid ixml grammars that are rejected (C52): a comment behind a mark (`-{u}"x"`), a range that starts with a doubled quote, an empty
    first alternative in a group, an empty alternative before `;`, a first rule named `ixml` followed by a blank; adjacent comments
    inside a comment end the outer comment.
30. `"z",""?` makes `"z"` optional: an empty literal or group under an operator takes the previous term instead (C52).
31. Marks (C53): `("x",@a)?` makes the group an attribute named `|0`, `@a,["x"]+` makes every character of the set an attribute, because the
    mark read last is kept in `state->ixml_mark`. A name given at a reference is lost, a renamed rule keeps its name in all alternatives
    but the first; insertions inside attributes are lost.
32. (observed) A rule named `error` is refused by yaep (yaep.c 2946, 3013); `xmqParseBufferWithIXML` then does a `longjmp` to a function
    that has returned (xmq.c 4613-4618). `YAEP_TERM` nodes are allocated with malloc and their mark is only set if there is one. A hidden
    start rule gives several roots of which the last wins. A range up to #7fffffff never ends.
33. Grammars refused by the parser (C55): `s:(x?)*.x:"a".` and every other repetition of something that can be empty are refused as "grammar with
    loops", although they are valid ixml; so are a rule named `error` and the code `#ffffffff`. The message can name a nonterminal that does not derive
    itself. The refusal is followed by the `longjmp` of item 32. The check that the axiom derives something can never fail, because of the rule
    `$S : error $eof`. (observed) `yaep_error` prints the name into a buffer of fixed size with `vsprintf` (yaep.c 2600-2617).
34. The parser loses items (C57, C58, C59): `set_add_initial_dotted_rule` (yaep.c 2071-2088) looks for the dotted rule also among the not yet started ones which have
    the length of their parent, so an initial dotted rule (length 0) is not added if the same rule and dot is there with a length. With
    `s:a,"q"|"b",a,"r".a:b,c,"d".b:"b"|.c:.` the text `bdr` is refused at `r` although it belongs to the language; with
    `s:a,"q"|"b",a.a:b,c.b:"b"|.c:.` the text `b` fails an assertion in `build_parse_tree`; an ambiguity is not noticed (`twoText`).
    The same happens with optional and repeated parts at the beginning of a rule, `a:b*,c*,"d".`
35. `xmqParseBufferWithIXML` returns true with an empty document after a syntax error: `yaepParse` returns 0 and `root` is NULL (xmq.c 4636-4653) (C60).
36. (observed) `handle_yaep_syntax_error` (xmq.c 4401-4425) takes the number of the token for a byte offset, which is wrong behind characters of more than one
    byte, and reads up to 20 bytes beyond the end of the buffer. `build_parse_tree` reads `rule->order[pos]` with `pos` -1 (yaep.c 4607).
37. A grammar can be used only once (C61): `yaep_j_` counts the rules handed to the parser (parts/ixml.c 1453-1502) and is never set back. With a second text only the
    rules added for the characters of its sets are handed over. A grammar without sets then has no rules and is refused (item 32); otherwise the name of the first set is the start symbol.
38. Namespaces (C62; xmq.c 2112-2664): `default_namespace` is one variable which is not restored when the element that declared it ends, so `root { a(xmlns=u) b }` puts
    `b` into `u`; `xmlns=''` clears it for everything that follows and sets the namespace of the element to NULL even if the element has a prefix. A default namespace
    or a prefix declared anew does not affect the element that declares it. The second attribute (or an attribute after the element) that uses a prefix before the
    declaration loses its namespace; since the printer prints attributes before declarations, printing and reading again loses namespaces. A declaration without value
    takes the value of the next attribute.
39. Processing instructions (C63): `?foo` without a value leaves `parsing_pi` set, so the value of the next element goes to the instruction, which is added behind that
    element; with `?foo=''` the byte before an empty string is read; a value that begins or ends with a quote gets a space there. (observed) `print_pi_node` prints
    `?foo = >` for an instruction without content (parts/xmq_printer.c 390-451), and in compact mode line feeds in instructions and doctypes become spaces.
40. Printing and reading loses namespaces (C64): `a(p:x = 1 p:y = 2 xmlns:p = u)` is what the printer writes for two attributes in `u`, and `y` is read without namespace.
    An element behind one with a default namespace is read into it, an element with its own default namespace inside another one is read into the outer one.
    `<?a x='1'?>`, hence every `<?xml-stylesheet href='a'?>`, gets a space at its end. `print_pi_node` reads before the content of an instruction without content.
41. Log lines (C65; xmq.c 4671-4960): `buf_vsnprintf` (xmq.c 4725-4742) calls `vsnprintf` again with a `va_list` that the first call has consumed when the value has 1024 bytes
    or more; a value with `'''` makes the line contain line breaks, since quotes longer than two are printed over several lines; in human readable mode the
    fields are run together (`first` is never set to false), the name is printed with its brace (`(car{) `) and line breaks in values are not escaped;
    `xmqLineDoc` ignores the document and returns `{howdy}`, which is not xmq.
42. Clines (C66): `\x` escapes of C have no fixed length, so `&#1;2` is printed as `"\x012"`, which is the single character 18, and DEL before `a` as `"\x7Fa"`, which is not C.
    An element whose children are comments or entity references does not appear at all. (observed) For a reference to a declared entity `cline_print_nodes` walks from the
    reference into the `xmlEntity`, which is not an `xmlNode`.
43. Text output (C67) prints an entity reference as `<ENTITY>name`.
44. Trimming (C69): `<a>&#13; &#13;x</a>` makes `xmq_trim_quote` look for indentation beyond the end of the text. Trimming glues words together: `<p>a <b>b</b></p>` becomes
    `<p>a<b>b</b></p>` (announced in a comment in the code).
45. Writing XML and HTML (C70; xmq.c 3240-3309): inside `style` and `script` `&#x41;` and `&nbsp;` are lost and `&#233;` becomes the single byte E9, which is not UTF-8 (`atoi` on the
    name, stored in a char). The element must not be the topmost one, and a reference to an entity named `style` is replaced anywhere. Writing changes the document of the caller:
    writing `<!--a--b-->` content twice gives `-␐-` and then `-␐␐-`.
    (observed) `copy_quote_settings_from_output_settings` (xmq.c 2682) sets `postfix_line` from `prefix_line`.
46. `print_utf8_char` (parts/utf8.c 11-57) takes a byte and the continuation bytes behind it for one character and writes only `explicit_space` or `explicit_tab` when it starts with
    a space or a tab. In texts, values and comments that are not proper UTF-8 continuation bytes behind a space or tab are lost: `xmqCompactQuote("a \x80b")` gives `'a b'`
    (C06, C30, C31; `NoStray` in the conditions; `C06_utf8_noStray`: holds for proper UTF-8).
47. Colours (C71): `print_color_post` writes `replay_active_color_pre` behind unicode whitespace when the theme has no post string, but only `print_utf8` sets it, and never back to NULL;
    in the quotes of a terminal the letters behind a no-break space get the colour of the first token of the document. Escape sequences in comments and quotes are sent to the
    terminal as they are. `needs_escape` looks only at the first byte of a character, so a stray continuation byte behind `<`, `>` or `&` is dropped in HTML. Quoted spaces have
    the colour of quotes whatever colour is asked for.
48. Elements of HTML (C72): `print_quote_lines_and_color_uwhitespace` writes no end tag when the text consists of newlines only (parts/xmq_printer.c 999-1010), so `<x>` with
    two newlines gives `<xmqEKV>` without `</xmqEKV>`. The `pre` tag is cut off at 1022 bytes (xmq.c 383-402). In TeX `%`, `$`, `^` and `~` are not escaped and a backslash
    becomes `\\backslash;` outside math mode.
49. Highlighting (C73): in a terminal the colour of the last token stays on, nothing is written after it (`C73_left_on`; xmq.c 626-644, no `content.post` for terminals). With
    `XMQ_RENDER_PLAIN` nothing is written at all (the callbacks are not installed, xmq.c 1661). A newline at the start of a source is lost in HTML, as browsers drop it behind `<pre>`.
    In TeX braces of the source are written as they are.
50. `a:=b` and `a: b` are accepted, with an empty name or key. Written to standard output the empty token stops the program at `assert(stop > start)`
    (xmq.c 800, `C73_false_empty`); into memory it is written.
51. The token listing (C74) writes control characters as `\x01` also in front of a hexadecimal digit, `snprintf(buf, 32, ...)` has space for 28 digits in all (xmq.c 1576).
52. `xmqReplaceEntity` is declared in xmq.h 762 but defined nowhere.
53. Conversion to JSON (C75) loses the name of a root that has only a text (`a=1` is written `1`), makes attributes of elements whose name starts with `_`,
    elements of references, and forgets an attribute `S` of an ordinary text. Elements named `text` or `comment` are counted together with texts and
    comments, so a single text is written as `"|[1]"` (`C75_counted_together`; harmless, as the index is dropped).
54. An implicit root (C76) is only made if nothing but processing instructions and a doctype precede the first element: `create_node` asks whether `state->element_last` is
    NULL (xmq.c 2499), and `do_comment`, `do_quote` and `do_entity` have set it. So a configuration file that begins with a comment is read without its root, with several elements
    at the top, and `/config/port` finds nothing (`C76_false_comment`; `doq->root_.node` stays NULL). If the first of several elements has the name of the root, the others are put beside it (`C76_false_same_name`).
55. By reading: a bare doctype inside an element (`a { !DOCTYPE=b }`) is linked twice, by `xmlNewDtd` before the element and by `xmlAddChild` into it (xmq.c 2134-2138), so that the
    list of children leads back to the element itself. libxml2 is not modelled; the model gives `none` for it.
56. Comments beside the root in JSON (C77): the stack of comments behind the root is emptied by the first object without containing node, and objects in arrays have none either
    (`json_print_element_with_children`, parts/json.c 1356), so `a { b(A) { _ { c } } } /*3*/` has its last comment moved into the array (`C77_false_array`). Behind a root named `_` they are read back before it
    (`root_found` is only set by a member `"_"`), beside a root that is only a value they are lost, and of a document of comments only the last is written, as `"//":"2"` without braces (`C77_only_comments`).
57. Colours (C80): `string_to_color_def` takes any byte behind an underscore for a mark (`#aabbcc_X`), and for `#aabbcc_` it steps over the NUL at the end and reads on (parts/colors.c 117-129). `generate_html_color`
    asks for 64 bytes but can write 65 (`xmqEKV`, bold and underlined), and answers `false` when it succeeds (232). The themes are not affected: their colours are constants, and the callers have 128 bytes.
58. for-each (C81): `${.}` writes `TODO` for every reference in the text (xmq-cli.c 3296), `${name}` leaves out the text of elements inside the child. Different names can have the same variable (`a-b`, `a.b`), which is then
    twice in the environment, and a variable that is there already stays before the new one; the shell chooses. Names such as `${1}` or `${}` are no variables for a shell. Selecting the document or a comment beside the root leads to
    NULL (xmq-cli.c 2286-2291, `C81_false_null`).
59. Entities (C82): substitute-char-entities only looks into the first node of the document (`cmd_substitute` goes back to it and calls `substitute_entity` once), so a comment before the root switches it off; it makes nothing of `&#x41;`
    (`decode_entity_ref` starts `strtol` at the `#`). substitute-entity with a name never changes anything, as `is_content_node` of a reference is false (xmq-cli.c 2719). delete-entity and both substitutions leave attributes alone.
    `replace_entities` reads `i->next` of a freed node for a reference beside the root (xmq-cli.c 2665). `--with-file` takes only the first node of the file, which may be a comment or doctype (xmq-cli.c 1014).
60. Loading (C83): `xmq <(command)`, `/dev/stdin` or a fifo as file: `ftell` gives -1, `malloc(fsize + 1)` is `malloc(0)`, and `fread` writes up to 10000 bytes into it (xmq.c 4186-4206, `C83_pipe`): memory is overwritten, and then an
    error is reported since `n != fsize`. After an error neither `fclose` nor `free` is called (4211-4216, 4250), and `load_stdin` sets no error number. Statistics (C84): references are counted but not written (xmq-cli.c 2485-2497).
61. Pager (C85): `continue` for `break` in `count_non_ansi_chars` (2879) makes an escape sequence take the rest of the line; `skip_ansi_backwards` never skips anything, as its loop starts at the `m`, which is no digit (2899-2907, `skipAnsi_never`).
    `skip_line_width_backwards` starts at a line feed when the line before is wrapped, and gives back the place itself: the arrow up has no effect any more (`C85_up_stuck`). Down moves `width - 1` characters and up `width`.
    `find_prev_line_start` does not look at the first byte (2953), so that with an empty first line the second line is passed over. `>` goes to `stop-100` also when the text is shorter (3551, `C85_false_end`). Two escape sequences in a
    row: the second one is counted as characters when scrolling (3028-3046).
62. Error messages (C86): `last_equals_start` is only set for the equals sign of an element (parts/xmq_parser.c 753-755), so that for some inputs it is NULL when the message is made (`C86_false_equals`), or the message points to another equals sign that has content (`C86_false_content`). "U+10FFFF" and its NUL are nine bytes in `utf8_codepoint[8]`
    (`C86_false_plane`). For a byte that begins no character `uc->bytes` is not set and is printed (`C86_false_byte`); for a truncated character the bytes behind the input are read. "body not closed" points to the last opened brace even if that one is closed
    (`C86_false_body`). The mark is one too far to the right for the first byte on a line (`C86_false_mark`), is counted in bytes and so misplaced behind other characters than ASCII, and is lost for long lines (`C86_false_length`). The text of the error is the format of
    `fprintf` in xmq-cli.c 1117, 1171, 1916, 2314 and 3947 (`C86_false_printed`): a document with `%n` in the shown line writes into memory.
63. Command line (C87): `cmd_help` gives false for a known command and true for an unknown one, and `main` returns it: `xmq help delete` has status 1, `xmq help nonsense` 0 (`C87_false_help`). For an unknown command the message names `argv[i-1]`, the file (`C87_false_named`). `cmd_name` and the help speak of `pager`, `browser`, `noout`, `to-lines` and
    `substitite-char-entities`, which are no commands (`C87_false_names`), and the help of `--nomerge` and `--htmq`, which are no options. `tokenize` disables loading, so that `xmq f delete /a tokenize` passes a NULL document to libxml2 (`C87_false_defined`), and it does not get `-i` (`C87_false_content`). A conversion takes the document as it is
    at its place: `xmq f to-xml delete /a` writes the undeleted document (`C87_false_edited`). `xmq f for-each /a print` fails with "no output found" (`C87_false_status`). `--ixml=g.xml` and `--ixml=g.xmq` are refused by the option which the message offers (`C87_false_grammar`). The first argument of `for-each` is the expression even if it is `--shell=...` (`C87_false_shell`).
    `--silentX` counts as `--silent`.

64. Editing (C88): `cmd_select` goes through the nodes from the last to the first and appends each, so that the result is in the opposite order (`C88_false_order`); a node that is selected inside another one is missing there (`C88_false_whole`). An attribute, a comment or a reference stands for its parent, which is freed: `select //@*` with two attributes in an element uses freed memory
    (`C88_false_attributes`), so does an element with a comment behind it (`C88_false_comment`); a comment at the top and an element behind it is a NULL pointer (`C88_false_prolog`), as is `/ | //a`. `xml_add_root_child` does not set `parent`, hence `xmlUnlinkNode` does not change `doc->children`: `select X select Y` frees the first node twice (`C88_false_twice`),
    `select X delete Y` leaves a pointer to freed memory (`C88_false_delete`), and after deleting the last node `add` uses one (`C88_false_add`). Not modelled: `xmlXPathFreeObject` is called after the nodes of its set have been freed and looks at their types. An XPath that gives a number or a string selects nothing, with success.

65. No merging (C89): with `--no-merge` the compact output is not stable: a newline in a quote is printed as `&#10;`, which is a reference of its own when it is read with the flag (`C89_false_compact`). `do_element_value_quote` does not use `create_quote` and merges also with the flag; this cannot be seen, as the element is empty then.

66. Looking up values (C90): `catch_single_content` gives `n->children->content`: `text()` is NULL (`C90_false_text`), text behind a reference is lost (`C90_false_reference`), a comment in front of the text is given as the value (`C90_false_comment`), and with `XMQ_FLAG_NOMERGE` only the first quote (`C90_false_no_merge`). For `namespace::*` the set has `xmlNs`, whose prefix is where `children` is
    in a node: its characters are taken for a node (`C90_false_namespace`).
67. Hash tables of yaep (C91): an entry that is reserved and left empty (parts/yaep.c 6615-6620 do this) is counted as an element, and if an element was removed before, its entry becomes empty and elements placed behind it are lost (`C91_reserve_false`); the program never removes, so this stays without effect (`C91_reserve`). `higher_prime_number` does not give the nearest greater prime if that is the next number (`C91_nearest_iff`).
68. Unknown characters (C92): `symb_finish_adding_terms` does not clear the vector it allocates. A character of the text that is no terminal but lies below the largest one is looked up in memory that was never written, and the pointer found there is used as a symbol (`C92_false`: the grammar knows `c`, the text is `a`). A grammar with a terminal above U+30D3D fails an assertion (`C92_fit_false`), for example with the range `[#0-#10ffff]`.
69. Sets of yaep (C93): `terminal_bitset_fill` sets bits behind the last terminal, so uniting with such a set reports changes that are none (`C93_fill_false`; nothing calls it). A new set of items has every pair until it is cleared (`C93_new`; it is always cleared first). Not modelled: `terminal_bitset_insert` (3540-3566, only with lookahead level 2) looks up a `term_set` whose `num_elements` was never set, though hash and equality use it; `terminal_bitset_print` writes the terminals that are not in the set and then also those that are.
70. Theme of the terminal (C94): for `COLORFGBG=15;` the byte two behind the semicolon is read, which is behind the end of the string (`C94_defined_false`). An xterm that does not answer within a second ends the program with an error, also for commands without any output for the terminal (`C94_silent_false`). Answers with two digits for each component mean dark, also for white (`C94_short_false`). An answer closed by ESC \\ leaves the backslash unread.
71. Names of characters (C95): in HTMQ with escaping of non-ASCII a character with a name is written by it, and reading that gives a reference node instead of the character (`C95_read_false`); with numbers it is the character. The printer elsewhere in the model writes numbers (`C95_plain`).
72. Before JSON is written (C96): in an element with only texts and references, everything behind `&amp;`, a hexadecimal reference or an entity that is not one of five is lost, as those are decoded to NUL, which ends the text (`C96_lost_false`). The document itself is changed, so writing JSON and then XML gives other XML than writing XML alone (`C96_changed_false`).
73. Output (C97): --omit-decl always skips 39 bytes, so of `<?xml version="1.0" encoding="utf-8" standalone="yes"?>` the part `andalone="yes"?>` stays (`C97_omit_false`; libxml2 makes documents read as HTML standalone). `print` converts the length to int, so that of 2^32 bytes nothing is printed (`C97_print_nothing`). `save-to` returns success after a short write (`C97_save_status_false`). `browse` shortens the output by the bytes to be skipped but starts at its beginning (`C97_browse_omit`, `C97_browse_false`).
74. Giving back a parse tree (C99): whether a name was seen is told by its first character being NUL, so a name without characters is never given back (`C99_blank_false`). Names of ixml rules have characters.
75. All parses (C100): an ambiguity inside an attribute fails an assertion (`C100_attr_false`); the readings of a hidden rule run into each other, so that it cannot be told where one ends (`C100_hidden_false`); an ambiguous rule marked `@` gives several attributes of the same name, which is not XML (`C100_twice_false`); a rule called AMBIGUOUS looks like an ambiguity (`C100_name_false`). (observed) build_parse_tree reads `rule->order[-1]` at the end of each rule before it looks at the position; with costs, which xmq does not use, prune_to_minimal leaves the cost of a node visited before unset.
76. Options for trimming (C101): the flags add up, so --trim=none behind --trim=heuristic has no effect on the trimming (`C101_last_false`), though it is obeyed by the XML parser, where `none` wins.
77. Keys of the pager (C102): `page` wants to end for escape, but read_key waits for a second key then and only escape twice ends it (`C102_escape_false`). F2 of an xterm (ESC O Q) ends it (`C102_f2_false`). When reading fails, get_char gives -1 and the pager draws the screen again for ever (`C102_gone_false`); at the end of input (`read` gives 0) it uses an uninitialised character.
78. quote-c and unquote-c (C103): for a document without text at the top, such as any with a root element, `strlen` gets a null pointer (`C103_null_false`). Elements and references beside the text are dropped (`C103_lost_false`), backslashes do not come back (`C103_false`).

## Axioms per theorem (`#print axioms`)

* Classical.choice, Quot.sound, propext: C01_decode_encode, C01_encode_is_rfc3629, C02_canonical_iff, C02_canonical_partial, C02_decode_consumes_within, C02_decode_local, C03_minimal, C03_never_two, C03_quote_read_back, C04_comment_read_back, C04_minimal, C05_bare_value_plain, C05_bare_value_read_back, C06_compact_quote_lossless_partial, C06_false, C06_false_leading_space, C06_false_quotes, C06_false_stray, C06_false_tabs, C06_false_triple_quote, C06_utf8_noStray, C07_compact_document_single_line_partial, C07_compact_quote_single_line_partial, C08_bound, C08_decided, C08_tab_hangs, C08_terminates_false, C08_terminates_paren_partial, C08_terminates_partial, C09_tokens_cover_input, C09_tokens_cover_prefix, C101_exact, C101_kept, C101_none, C101_wanted_partial, C103_back, C103_iff, C103_line, C103_round_partial, C10_token_positions, C10_token_positions_offset, C11_accepted_balanced, C11_counts, C12_tokens_complete, C14_any_depth_partial, C14_false_indentation, C14_false_newline, C14_false_trailing_space, C14_multi_line_quote_partial, C15_memory_safe_partial, C16_reindent, C17_lossless, C17_no_double_dash, C17_well_formed_iff, C17_well_formed_partial, C17_xml_to_xml_iff, C18_accepted_is_xmq, C18_html_rule, C18_printed_is_xmq_partial, C19_char_entity_printed, C19_char_entity_read_back, C20_get_after_puts, C20_iterate, C21_size_and_free, C21_stack_is_list, C23_membuffer_is_append_only, C23_never_aborts, C24_result_unique, C24_sorts, C25_exact, C25_iff, C25_round_trip_partial, C26_read_partial, C26_round_trip_partial, C26_write_iff, C27_complete_partial, C27_sound_partial, C28_accepted_partial, C28_ends_partial, C28_only_loop, C29_categories_overlap, C29_every_category, C29_lookup_is_membership, C29_names_stand_for, C29_supplementary_missed, C30_compact_injective_partial, C30_compact_round_trip_exact_partial, C30_compact_round_trip_partial, C30_false_attribute, C30_false_comment, C30_false_comment_newline, C30_false_comment_spaces, C30_false_stray, C30_reads_unique, C31_false_column, C31_false_column_spaces, C31_false_equals, C31_false_quotes, C31_false_stray, C31_pretty_compact_agree_partial, C31_pretty_injective_partial, C31_pretty_round_trip_exact_partial, C31_pretty_round_trip_partial, C32_html_read_back, C32_render_html_read_back, C32_render_tex_read_back, C32_tex_injective, C34_index_removed, C34_suffix_removed, C36_compact_any_depth_partial, C36_false_compact, C36_false_leading_newline, C36_false_pretty, C36_false_trailing_space, C36_pretty_any_depth_partial, C36_pretty_comment_partial, C37_aborts_only_for_large, C37_collapse_partial, C38_memory_safe_partial, C38_stable_partial, C40_line_col, C40_right_partial, C41_reads_inside_partial, C42_entities_complete_partial, C43_any_line_ending, C43_multi_line_is_dedent, C43_quote_token, C45_names_read_back, C46_exact, C46_octal_decimal, C47_complement, C47_complement_once, C48_outside_cause, C48_scan_partial, C49_round_trip_partial, C50_accepted_alike, C50_line_endings, C50_lone_cr_counts, C50_quote_line_endings, C50_saved_with_crlf, C51_decimal_reference, C51_hex_reference, C51_named_reference, C52_false, C52_false_accepts, C52_false_rejected, C52_same_language_partial, C53_document_partial, C53_false, C53_false_mark, C53_false_renamed, C53_unambiguous_partial, C54_accepts_partial, C54_ends_partial, C54_false, C54_false_abort, C54_false_hang, C55_accepted_partial, C55_ends, C55_false, C55_false_error, C55_false_message, C55_false_negative, C55_false_repetition, C56_exact, C56_lookahead, C57_answers_false, C57_exact_partial, C57_false, C57_false_assertion, C57_false_lost, C57_sound, C58_ambiguous, C58_false, C58_false_two, C58_tree, C58_unambiguous_partial, C59_false, C59_first_error_partial, C59_viable, C60_document_partial, C60_false, C60_false_lost, C60_language_partial, C60_only_partial, C60_refused_partial, C60_returns_false, C61_false, C61_instead_partial, C61_one_character, C61_without_sets, C62_false, C62_false_default_again, C62_false_default_off, C62_false_default_off_prefixed, C62_false_default_stays, C62_false_element_before, C62_false_no_value, C62_false_prefix_again, C62_false_two_before, C62_read_partial, C62_resolved_partial, C62_unique, C62_written, C63_false, C63_false_edge_spaces, C63_false_empty, C63_false_no_value, C63_pi_partial, C64_agree_partial, C64_compact_partial, C64_false, C64_false_default_again, C64_false_default_stays, C64_false_pi_newline, C64_false_pi_quotes, C64_false_two_attributes, C64_injective_partial, C64_pretty_partial, C65_false_doc, C65_false_tabs, C65_injective_partial, C65_line_partial, C65_one_line_partial, C65_text_partial, C66_clines_partial, C66_false_del, C66_injective_partial, C67_round_trip_iff, C68_answer, C68_sets, C68_sound, C69_only_whitespace_partial, C69_text_partial, C70_written_partial, C71_copied_partial, C71_element_partial, C71_page_partial, C71_plain, C71_shown_partial, C71_terminal_partial, C72_compact, C72_page_partial, C72_pretty_partial, C73_cells_partial, C73_false_empty, C73_left_on, C73_page_cells_partial, C73_page_partial, C73_sequence, C73_terminal_partial, C73_uncoloured, C74_ascii, C74_distinct_partial, C74_false, C74_listing_partial, C74_source_distinct_partial, C74_source_partial, C75_injective_partial, C75_lookup_partial, C75_round_trip_partial, C76_children_partial, C76_exact, C76_false, C76_false_comment, C76_false_same_name, C76_ignored, C76_root_partial, C76_unique, C77_false, C77_injective_partial, C77_round_trip_partial, C78_comment_last, C78_longest, C78_longest_prefix, C78_name_apart, C78_whitespace_apart, C79_error_utf8, C79_source_utf8, C79_tokens_utf8, C80_beyond, C80_exact, C80_parts, C80_reads, C80_terminal, C80_tex, C81_command, C81_each, C81_exact, C81_false, C81_false_environment, C81_false_nested, C81_in_place, C81_means_partial, C81_names, C81_pieces, C81_plain, C81_value_partial, C82_delete_exact, C82_delete_partial, C82_none_left, C82_replace, C82_replace_partial, C82_substitute_named, C82_substitute_partial, C83_file_contents, C83_file_partial, C83_file_shorter, C83_same, C83_stdin, C83_stdin_ends, C83_stdin_whole, C84_numbers, C84_statistics, C85_inside_partial, C85_last_screen, C85_next_line, C85_next_row, C85_page_loses_nothing, C85_progress, C85_shows_everything, C85_up_stuck, C85_up_undoes_down_partial, C86_attributes, C86_body_partial, C86_character, C86_column, C86_false_body, C86_has_message, C86_latest, C86_message, C86_picture_partial, C86_printed_none, C86_warning, C86_whole, C87_accepts, C87_grammar, C87_refuses, C87_usual, C88_add, C88_add_root, C88_delete, C88_delete_defined, C88_delete_loaded, C88_edits_partial, C88_false_add, C88_false_attributes, C88_false_comment, C88_false_prolog, C88_false_whole, C88_select, C88_select_defined, C88_select_loaded, C88_select_partial, C89_decimal, C89_false_compact, C89_finished, C89_hex, C89_merge, C89_pieces, C89_split, C89_unique, C90_int_partial, C90_long_partial, C90_whole, C91_nearest_false, C91_nearest_iff, C91_reserve, C91_reserve_false, C91_size, C91_table, C91_tables_of_yaep, C92_find, C92_fit_false, C92_fit_iff, C92_refused_iff, C92_refused_partial, C92_tokens, C92_tokens_iff, C92_vector_iff, C93_fill_false, C93_terminals, C94_background, C94_defined_iff, C94_fgbg_iff, C95_ascii, C95_read_iff, C95_reference, C96_again, C96_joins_partial, C96_kept_partial, C96_lost_false, C96_round_trip_partial, C96_structure, C97_omit_false, C97_omit_iff, C98_apart, C98_objects, C98_segment_fits, C98_stays, C98_variable, C99_once
* Quot.sound, propext: C02_canonical_false, C07_false_comment_cr, C07_false_triple_quote, C100_all_partial, C100_attr_false, C100_hidden_false, C100_order, C100_place, C100_twice_false, C101_blanks, C102_bytes, C102_keys, C102_quit, C102_stays, C102_text, C103_false, C103_lost_false, C103_null_false, C13_single_line_unchanged, C14_false, C17_buffer_exact, C17_unescape_fits, C17_xml_to_xml_false, C17_xml_to_xml_partial, C18_memory_safe_partial, C18_printed_is_xmq_false, C18_rule, C22_vector_is_list, C22_vector_size, C25_false, C25_over_read, C26_write_false, C27_exact, C27_false, C27_missed, C27_tab, C28_accepted_false, C28_false, C30_false, C31_false, C32_html_no_markup, C34_nothing_else_removed, C35_parse_i8, C37_false, C37_no_overrun, C39_strip_exact, C40_excerpt_partial, C40_false, C41_false, C41_witnesses, C42_false, C42_without_semicolon, C45_iff, C45_keys_distinct_partial, C46_false, C46_get_int_partial, C46_get_long_partial, C46_hex_zero, C47_includes, C47_no_repetition_false, C48_false, C49_false, C49_special_keys, C49_unnamed, C55_rules, C64_false_pi_empty, C65_false, C65_false_human_fields, C65_false_human_lines, C65_false_long, C65_false_triple_quote, C66_false, C66_false_comment_only, C66_false_hex, C66_false_structure, C67_iff, C70_false, C70_false_latin, C70_part, C70_twice_partial, C71_false_colour, C71_false_escape, C71_false_stray, C71_utf8, C72_false_class, C72_false_newlines, C72_false_tex, C73_false, C73_false_newline, C73_false_plain, C73_false_tex, C75_counted_together, C75_false, C75_false_S, C75_false_entity, C75_false_root, C75_false_underscore, C75_reads_unique, C76_empty, C77_false_array, C77_false_array_root, C77_false_unnamed, C77_false_value, C77_only_comments, C77_reads_alike, C77_reads_unique, C77_writes_alike, C80_ansi_fits, C80_html_fits, C80_sheet, C82_determined, C82_substitute_false, C82_substitute_false_attribute, C82_substitute_false_hex, C83_handed, C83_pipe, C84_readable, C84_sums, C85_draws_text, C86_false_byte, C86_false_content, C86_false_equals, C86_false_mark, C86_false_plane, C86_false_printed, C86_printed_name, C87_stops, C88_false_delete, C88_false_order, C88_false_twice, C90_defined, C90_false_comment, C90_false_no_merge, C90_false_reference, C90_false_text, C90_foreach, C91_reserve_count_false, C92_false, C93_items, C93_new, C93_new_false, C95_means, C95_plain, C96_changed_false, C97_browse_here, C97_browse_name_partial, C97_browse_omit, C97_browse_partial, C97_print_false, C97_print_iff, C97_print_nothing, C97_save, C99_blank_false, free_of_ends, free_of_once, free_of_single, namesText_means, pi_written
* none: C15_false, C44_agreeing_type, C44_clines_never_accepted, C44_disagreeing_type, C44_false, C44_htmq_never_accepted, C46_get_int_wraps, C47_categories_known, C67_false_entity, C80_sheet_unique, C83_false_pipe, C85_false_one_column, C86_texts, C90_count, C97_browse_false, C97_save_status_false
* propext: C100_name_false, C100_one, C101_last_false, C101_parser, C102_escape_false, C102_f2_false, C102_gone_false, C17_well_formed_false, C18_html_behind_comment_missed, C18_ignores_leading_space, C18_memory_safe_false, C18_negative_number_missed, C26_read_false, C26_read_surrogates, C27_extra, C28_aborts, C28_hangs, C33_bom_transparent_partial, C33_false, C33_nothing_else_skipped, C33_same_document, C34_false, C37_false_amp, C38_false, C38_false_indentation, C40_excerpt_false, C45_false, C51_outside_range, C66_cstring_unique, C67_false, C67_false_nul, C67_round_trip_partial, C67_text_partial, C69_false, C69_false_words, C69_structure, C70_false_lost, C70_twice_false, C80_false, C80_false_beyond, C80_false_html_size, C80_false_letter, C80_themes, C81_false_null, C81_false_same, C82_delete_false, C82_file_false, C82_replace_false, C83_false_closes, C84_additive, C84_false_references, C85_false_end, C85_false_first, C85_false_rows, C86_false_length, C86_printed_partial, C87_false_content, C87_false_defined, C87_false_edited, C87_false_grammar, C87_false_help, C87_false_named, C87_false_names, C87_false_shell, C87_false_status, C87_words, C88_joined, C90_exact, C90_false_namespace, C90_first, C90_zero, C94_defined_false, C94_not_a_terminal, C94_otherwise, C94_short_false, C94_silent_false, C94_theme, C95_read_false, C97_nothing_left_out, C97_print_prefix
