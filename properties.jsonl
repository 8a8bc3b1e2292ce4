{"id": "C01", "title": "UTF-8 encoding is decodable", "statement": "Encoding any Unicode code point as UTF-8 gives the RFC 3629 byte sequence, and decoding those bytes, whatever follows them in the buffer, gives the same code point and consumes exactly those bytes.", "quantifier": "every code point 0..0x10FFFF, every following byte sequence", "why_tests_cant": "1.1 million code points times unbounded contexts; a test samples the length boundaries", "anchors": ["src/main/c/parts/text.c:encode_utf8", "src/main/c/parts/text.c:decode_utf8"]}
{"id": "C02", "title": "UTF-8 decoding is safe and canonical", "statement": "Decoding at any position of any non-empty byte buffer consumes at least one and at most the available bytes, reads no byte at or after the end, and when it reports success, re-encoding the result gives back the consumed bytes (false for overlong forms; holds for shortest forms).", "quantifier": "every non-empty byte buffer, including malformed UTF-8", "why_tests_cant": "malformed byte combinations are unbounded and usually not in test corpora", "anchors": ["src/main/c/parts/text.c:decode_utf8", "src/main/c/parts/text.c:encode_utf8"]}
{"id": "C03", "title": "Quote delimiter is always long enough", "statement": "For every text that neither starts nor ends with a single quote, surrounding it with the number of quote characters the printer chooses gives a token that the parser reads back as exactly that text, never fewer or more bytes; the chosen number is never two, and no shorter non-forced delimiter would do.", "quantifier": "every byte string and every following input that does not begin with a quote", "why_tests_cant": "needs every pattern of runs of quotes inside the content", "anchors": ["src/main/c/parts/xmq_printer.c:count_necessary_quotes", "src/main/c/parts/xmq_parser.c:eat_xmq_quote"]}
{"id": "C04", "title": "Comment delimiter is always long enough", "statement": "For every comment text, the number of slashes the printer chooses makes the parser stop at exactly the closing delimiter, never at an asterisk-slash sequence within the text.", "quantifier": "every comment text and every following input not beginning with a slash", "why_tests_cant": "needs every pattern of asterisk/slash runs", "anchors": ["src/main/c/parts/xmq_printer.c:count_necessary_slashes", "src/main/c/parts/xmq_parser.c:eat_xmq_comment_to_close"]}
{"id": "C05", "title": "Bare values are read back exactly", "statement": "Whenever the printer decides a value may be written without quotes, the parser, at a value position, reads exactly that value as a plain text value and stops at the following delimiter.", "quantifier": "every byte string, every follower that is whitespace, quote, brace or parenthesis", "why_tests_cant": "character class interaction of printer and parser for every byte string", "anchors": ["src/main/c/parts/xmq_parser.c:is_xmq_text_value", "src/main/c/parts/xmq_parser.c:eat_xmq_text_value", "src/main/c/parts/xmq_internals.c:is_safe_value_char"]}
{"id": "C06", "title": "xmqCompactQuote is lossless", "statement": "For every C string content, parsing key=Q with Q = xmqCompactQuote(content) gives an element whose text is exactly content.", "quantifier": "every NUL-free valid UTF-8 string", "why_tests_cant": "the branches on quotes, whitespace and control characters combine in unboundedly many ways", "anchors": ["src/main/c/xmq.c:xmqCompactQuote", "src/main/c/parts/xmq_printer.c:print_value_internal_text", "src/main/c/parts/xmq_parser.c:parse_xmq_value", "src/main/c/xmq.c:xmq_un_quote"]}
{"id": "C07", "title": "Compact output is a single line", "statement": "A compact quoted value never contains a line feed or a carriage return byte, whatever the content.", "quantifier": "every content string", "why_tests_cant": "must hold for every content", "anchors": ["src/main/c/parts/xmq_printer.c:print_value_internal_text", "src/main/c/parts/xmq_printer.c:find_next_char_that_needs_escape"]}
{"id": "C08", "title": "The xmq parser terminates on every input", "statement": "Tokenizing or parsing any buffer finishes with success or an error after finitely many steps.", "quantifier": "every byte buffer", "why_tests_cant": "non-termination cannot be observed by a finite test and the inputs are unbounded", "anchors": ["src/main/c/parts/xmq_parser.c:parse_xmq", "src/main/c/parts/xmq_parser.c:parse_xmq_attributes", "src/main/c/parts/xmq_parser.c:parse_xmq_compound_children"]}
{"id": "C09", "title": "Tokens cover the input exactly", "statement": "When tokenizing succeeds, the delivered tokens taken in order, concatenated, are exactly the input: no byte is dropped, repeated or reordered.", "quantifier": "every input buffer that tokenizes successfully", "why_tests_cant": "must hold for every accepted document", "anchors": ["src/main/c/parts/xmq_parser.c:parse_xmq", "src/main/c/xmq.c:xmqTokenizeBuffer"]}
{"id": "C10", "title": "Token positions are true", "statement": "Each delivered token carries the line (1 + number of line feeds before it) and column (1 + number of UTF-8 characters since the last line feed) of its first byte.", "quantifier": "every input and every token", "why_tests_cant": "positions depend on the whole prefix", "anchors": ["src/main/c/parts/xmq_parser.c:parse_xmq", "src/main/c/parts/xmq_internals.c:increment"]}
{"id": "C11", "title": "Accepted documents are balanced", "statement": "A token stream accepted by the parser is well nested: every opening brace or parenthesis is closed by the matching kind, and none is left open or closed too much.", "quantifier": "every input buffer", "why_tests_cant": "must hold for every accepted document", "anchors": ["src/main/c/parts/xmq_parser.c:parse_xmq_element_internal", "src/main/c/parts/xmq_parser.c:parse_xmq_compound", "src/main/c/xmq.c:xmqTokenizeBuffer"]}
{"id": "C12", "title": "Unclosed constructs are rejected", "statement": "A buffer that ends inside a quote, a comment, a body, an attribute list or a compound is never accepted.", "quantifier": "every prefix that ends within a construct", "why_tests_cant": "every truncation point of every document", "anchors": ["src/main/c/parts/xmq_parser.c:eat_xmq_quote", "src/main/c/parts/xmq_parser.c:eat_xmq_comment_to_close", "src/main/c/parts/xmq_parser.c:parse_xmq_element_internal"]}
{"id": "C13", "title": "Single line quotes are never altered", "statement": "Removing incidental indentation from a text without any line break returns the text unchanged, for every source indentation.", "quantifier": "every text without line breaks, every indentation", "why_tests_cant": "all strings", "anchors": ["src/main/c/xmq.c:xmq_trim_quote", "src/main/c/xmq.c:xmq_un_quote"]}
{"id": "C14", "title": "Multi line quotes survive indentation", "statement": "Printing a text as a multi line quote at any indentation and removing the incidental indentation when parsing gives the text back.", "quantifier": "every printable multi line text, every indentation", "why_tests_cant": "interaction of every indentation with every line structure", "anchors": ["src/main/c/parts/xmq_printer.c:print_safe_leaf_quote", "src/main/c/parts/xmq_printer.c:print_quote_lines_and_color_uwhitespace", "src/main/c/xmq.c:xmq_trim_quote"]}
{"id": "C15", "title": "Trimming stays inside its buffers", "statement": "Removing incidental indentation never reads before or after the quote text and never writes beyond the buffer it allocates.", "quantifier": "every text, every indentation", "why_tests_cant": "memory errors show only for particular line structures", "anchors": ["src/main/c/xmq.c:xmq_trim_quote", "src/main/c/xmq.c:find_line"]}
{"id": "C16", "title": "Re-indenting a quote does not change it", "statement": "Shifting a multi line quote (its start column and each of its lines) by any number of spaces gives the same text.", "quantifier": "every text, every shift", "why_tests_cant": "every text and shift", "anchors": ["src/main/c/xmq.c:xmq_trim_quote"]}
{"id": "C17", "title": "XML comment escaping is lossless and safe", "statement": "Escaping comment text for XML never leaves two consecutive dashes in the output and unescaping gives the original comment back.", "quantifier": "every byte string", "why_tests_cant": "every pattern of dashes and escape characters", "anchors": ["src/main/c/xmq.c:escape_xml_comment", "src/main/c/xmq.c:unescape_xml_comment"]}
{"id": "C18", "title": "Content detection is decided by the first significant bytes", "statement": "xmqDetectContentType answers json, xml, html or xmq by the documented rule on the first non-whitespace bytes, and printed xmq is detected as xmq again.", "quantifier": "every buffer", "why_tests_cant": "every buffer", "anchors": ["src/main/c/xmq.c:xmqDetectContentType", "src/main/c/xmq.c:find_word_ignore_case"]}
{"id": "C19", "title": "Entities written by the printer are read back", "statement": "A character written as a numeric character entity is read back by the parser as the same character.", "quantifier": "every Unicode code point the printer can escape", "why_tests_cant": "1.1 million code points", "anchors": ["src/main/c/parts/xmq_printer.c:print_char_entity", "src/main/c/xmq.c:create_entity", "src/main/c/parts/xmq_parser.c:eat_xmq_entity"]}
{"id": "C20", "title": "The hash map is a map", "statement": "After any sequence of puts, a lookup returns the value of the latest put for that key and nothing for other keys, the size is the number of distinct keys, and iteration yields each pair exactly once.", "quantifier": "every sequence of operations, every table size, every collision pattern", "why_tests_cant": "collision histories are unbounded", "anchors": ["src/main/c/parts/hashmap.c:hashmap_put", "src/main/c/parts/hashmap.c:hashmap_get", "src/main/c/parts/hashmap.c:hashmap_next_key_value"]}
{"id": "C21", "title": "The stack is a LIFO that can be drained from the bottom", "statement": "After any sequence of push, pop and rock operations the stack behaves as a list with push/pop at one end and rock removing at the other.", "quantifier": "every operation sequence", "why_tests_cant": "histories are unbounded", "anchors": ["src/main/c/parts/stack.c:push_stack", "src/main/c/parts/stack.c:pop_stack", "src/main/c/parts/stack.c:rock_stack"]}
{"id": "C22", "title": "The vector is a growable array", "statement": "After any sequence of push/pop operations the vector holds the pushed elements in order and never writes outside its allocation.", "quantifier": "every operation sequence", "why_tests_cant": "growth happens at sizes tests do not reach", "anchors": ["src/main/c/parts/vector.c:vector_push_back", "src/main/c/parts/vector.c:vector_pop_back"]}
{"id": "C23", "title": "The memory buffer is append only", "statement": "After any sequence of appends the buffer holds the concatenation of everything appended and never more than its capacity.", "quantifier": "every sequence of appends of every length", "why_tests_cant": "growth policy depends on all lengths", "anchors": ["src/main/c/parts/membuffer.c:membuffer_append_region", "src/main/c/parts/membuffer.c:pick_buffer_new_size"]}
{"id": "C24", "title": "String sorting sorts", "statement": "Sorting an array of strings yields a permutation of it in ascending strcmp order, and terminates.", "quantifier": "every array of strings", "why_tests_cant": "all arrays", "anchors": ["src/main/c/parts/quicksort_strings.c:quicksort_strings"]}
{"id": "C25", "title": "C quoting round trips", "statement": "Unquoting a C-quoted string gives the original (false for backslashes and unprintable bytes; holds for the rest).", "quantifier": "every string", "why_tests_cant": "all strings", "anchors": ["src/main/c/parts/text.c:xmq_quote_as_c", "src/main/c/parts/text.c:xmq_unquote_as_c"]}
{"id": "C26", "title": "JSON strings round trip", "statement": "A string printed as a JSON string is read back by the JSON parser as the same string.", "quantifier": "every string without control characters outside the JSON escapes", "why_tests_cant": "all strings", "anchors": ["src/main/c/parts/json.c:eat_json_quote", "src/main/c/parts/text.c:xmq_quote_as_c"]}
{"id": "C27", "title": "JSON number recognition", "statement": "What is recognised as a JSON number is exactly the JSON number grammar (false in both directions; holds on the plain decimal subset).", "quantifier": "every byte string", "why_tests_cant": "all strings", "anchors": ["src/main/c/parts/json.c:is_jnumber", "src/main/c/parts/json.c:json_is_number"]}
{"id": "C28", "title": "The JSON parser terminates without aborting", "statement": "Parsing any buffer as JSON finishes with success or an error.", "quantifier": "every byte buffer", "why_tests_cant": "non-termination cannot be observed", "anchors": ["src/main/c/parts/json.c:parse_json", "src/main/c/parts/json.c:parse_json_object", "src/main/c/parts/json.c:parse_json_array"]}
{"id": "C29", "title": "Unicode category lookup is set membership", "statement": "A code point is reported to belong to a category exactly when it lies in one of the ranges of the category's table.", "quantifier": "every code point, every table sorted by range", "why_tests_cant": "1.1 million code points", "anchors": ["src/main/c/parts/text.c:category_has_code", "src/main/c/parts/text.c:unicode_lookup_category_parts"]}
{"id": "C30", "title": "Compact documents round trip", "statement": "Printing a document compactly and parsing the result gives the same document.", "quantifier": "every document tree with xmq names", "why_tests_cant": "trees are unbounded", "anchors": ["src/main/c/parts/xmq_printer.c:print_node", "src/main/c/parts/xmq_parser.c:parse_xmq", "src/main/c/xmq.c:xmq_print_xmq"]}
{"id": "C31", "title": "Pretty printed documents round trip", "statement": "Pretty printing a document and parsing the result gives the same document.", "quantifier": "every document tree with xmq names", "why_tests_cant": "trees are unbounded", "anchors": ["src/main/c/parts/xmq_printer.c:print_node", "src/main/c/parts/xmq_parser.c:parse_xmq", "src/main/c/xmq.c:xmq_print_xmq"]}
{"id": "C32", "title": "Escaping for HTML and TeX is faithful", "statement": "Escaped html text contains no raw markup characters and decodes back to the original; different texts have different TeX renderings.", "quantifier": "every byte string", "why_tests_cant": "all strings", "anchors": ["src/main/c/xmq.c:write_safe_html", "src/main/c/xmq.c:write_safe_tex", "src/main/c/parts/xmq_internals.c:needs_escape"]}
{"id": "C33", "title": "A byte order mark is transparent", "statement": "A buffer with a UTF-8 byte order mark parses as the buffer without it; other leading bytes are never skipped.", "quantifier": "every buffer", "why_tests_cant": "all buffers", "anchors": ["src/main/c/xmq.c:skip_any_potential_bom"]}
{"id": "C34", "title": "JSON index suffixes are removed exactly", "statement": "The [n] suffix that the JSON printer adds to repeated keys is removed when parsing, for every key and index (but keys ending in such a suffix themselves are altered).", "quantifier": "every key, every index", "why_tests_cant": "all keys and indexes", "anchors": ["src/main/c/parts/json.c:trim_index_suffix", "src/main/c/parts/json.c:json_print_object_nodes"]}
{"id": "C35", "title": "Byte parsing of integers is exact", "statement": "Parsing a signed 8 bit integer succeeds exactly for the numerals with value in range and gives that value.", "quantifier": "every byte string", "why_tests_cant": "all numerals", "anchors": ["src/main/c/parts/core.c:coreParseI8", "src/main/c/parts/core.c:internal_parser_number"]}
{"id": "C36", "title": "Comment text is recovered", "statement": "The text of a comment printed by the pretty printer or compact printer is recovered by the parser.", "quantifier": "every comment text, every indentation", "why_tests_cant": "all texts", "anchors": ["src/main/c/parts/xmq_printer.c:print_comment_node", "src/main/c/xmq.c:xmq_un_comment"]}
{"id": "C37", "title": "Collapsing text keeps the characters", "statement": "Collapsing adjacent text and character references into one text gives the concatenation of the texts and the referenced characters and never overruns the allocated buffer.", "quantifier": "every sequence of text and character references", "why_tests_cant": "all sequences", "anchors": ["src/main/c/parts/xml.c:xml_collapse_text", "src/main/c/parts/xml.c:decode_entity_ref"]}
{"id": "C38", "title": "Trimming text nodes is stable", "statement": "Trimming whitespace of a text node a second time does not change it.", "quantifier": "every text", "why_tests_cant": "all texts", "anchors": ["src/main/c/xmq.c:trim_text_node", "src/main/c/xmq.c:xmq_trim_quote"]}
{"id": "C39", "title": "Quote stripping is exact", "statement": "Stripping the surrounding quotes of a quote token removes exactly the delimiters.", "quantifier": "every quote token", "why_tests_cant": "all tokens", "anchors": ["src/main/c/xmq.c:xmq_un_quote", "src/main/c/parts/xmq_parser.c:eat_xmq_quote"]}
{"id": "C40", "title": "Error position lookup", "statement": "The line and column reported for a byte offset match the offset.", "quantifier": "every buffer and offset", "why_tests_cant": "all buffers", "anchors": ["src/main/c/parts/text.c:find_line_col"]}
{"id": "C41", "title": "The parser reads only its buffer", "statement": "Parsing a NUL terminated buffer never reads before its first byte or after the terminating NUL.", "quantifier": "every buffer", "why_tests_cant": "all buffers, in particular every prefix of a document", "anchors": ["src/main/c/parts/xmq_parser.c:parse_xmq"]}
{"id": "C42", "title": "Accepted entity references are complete", "statement": "Every entity reference of an accepted document ends with a semicolon.", "quantifier": "every document", "why_tests_cant": "all documents", "anchors": ["src/main/c/parts/xmq_parser.c:eat_xmq_entity"]}
{"id": "C43", "title": "Meaning of multi line quotes", "statement": "A text of several lines stands for its lines with the common indentation, the trailing blanks of its lines and one line break at the beginning and end removed, and nothing else changed.", "quantifier": "every text of several lines, every start column", "why_tests_cant": "all line structures", "anchors": ["src/main/c/xmq.c:xmq_trim_quote"]}
{"id": "C44", "title": "A requested content type is honoured", "statement": "When a content type is given explicitly the buffer is parsed by the parser of that type if the detected type agrees, and rejected otherwise; every offered type can be used (false: HTMQ and CLINES are always rejected).", "quantifier": "every buffer, every requested type", "why_tests_cant": "all buffers times all types", "anchors": ["src/main/c/xmq.c:xmqParseBufferWithType", "src/main/c/xmq.c:xmqDetectContentType"]}
{"id": "C45", "title": "Repeated JSON keys are distinct and read back", "statement": "Children of an element printed as a JSON object get pairwise distinct keys even if names repeat, and the names are recovered when the keys are read (false for arrays).", "quantifier": "every list of children", "why_tests_cant": "all lists of names", "anchors": ["src/main/c/parts/json.c:json_print_object_nodes", "src/main/c/parts/json.c:json_print_element_name", "src/main/c/parts/json.c:trim_index_suffix"]}
{"id": "C46", "title": "Integers fetched from a document have the written value", "statement": "xmqGetInt and xmqGetLong give the value of the numeral stored in the document, in decimal, octal and hexadecimal notation, with a sign (false for signed hexadecimal and octal ones).", "quantifier": "every numeral", "why_tests_cant": "all numerals", "anchors": ["src/main/c/xmq.c:xmqGetIntRel", "src/main/c/xmq.c:xmqGetLongRel"]}
{"id": "C47", "title": "A character set and its complement partition the characters", "statement": "For a character set of an ixml grammar, every character used in the content is matched either by the set or by its complement, never both; the set matches the characters in its ranges and categories.", "quantifier": "every content, every character set with known categories", "why_tests_cant": "all code points times all sets", "anchors": ["src/main/c/parts/ixml.c:scan_content_fixup_charsets", "src/main/c/parts/text.c:category_has_code"]}
{"id": "C48", "title": "Scanning ixml content stays inside its table", "statement": "Scanning the content to be parsed with an ixml grammar marks exactly the code points of the content and never writes outside the table of used characters (false for malformed UTF-8).", "quantifier": "every content", "why_tests_cant": "all byte sequences", "anchors": ["src/main/c/parts/ixml.c:scan_content_fixup_charsets", "src/main/c/parts/text.c:decode_utf8"]}
{"id": "C49", "title": "JSON survives the conversion to a document and back", "statement": "For every JSON text that is read as JSON, writing the resulting document as JSON succeeds and gives a JSON text of the same value: the same nesting of objects and arrays, the same keys in the same order, strings with the same characters, the same numbers, booleans and nulls, and strings that look like numbers or keywords remain strings.", "quantifier": "all JSON values (arbitrary nesting and length), all texts of each value (whitespace, escapes)", "why_tests_cant": "the mapping of keys to element names and of strings to texts has many special cases (names, indices, attributes A, S and _, empty containers) that combine at every level of nesting; tests see a few documents", "anchors": ["src/main/c/parts/json.c: parse_json, parse_json_quote, parse_json_object, parse_json_array, json_print_node, json_print_element_name, json_print_value, json_print_array_nodes, json_print_object_nodes, json_print_leaf_node", "src/main/c/xmq.c: xmq_parse_buffer_json, xmq_print_json"]}
{"id": "C50", "title": "Windows line endings do not change a document", "statement": "A document whose lines end in CR LF is accepted exactly when the same document with LF line endings is, and is read as the same tree: names, attributes, comments and the contents of single and multi line quotes are equal. Only a CR that is not followed by LF counts as a character of its own.", "quantifier": "every input in which each CR is followed by LF, every document", "why_tests_cant": "the CR has to be skipped consistently by whitespace, quotes, dedentation, line comments, block comments and position tracking; tests hold files with LF", "anchors": ["src/main/c/parts/xmq_parser.c: parse_xmq, eat_xmq_quote, eat_xmq_comment_to_eol, parse_xmq_comment, eat_xml_whitespace", "src/main/c/xmq.c: xmq_trim_quote, xmq_un_quote, xmq_un_comment, find_line", "src/main/c/parts/xmq_internals.c: increment, count_whitespace"]}
{"id": "C51", "title": "A numeric character reference is the character of that number", "statement": "In a value the reference &#n; with decimal digits, or &#xn; with hexadecimal digits of either case and any number of leading zeros, is read as the UTF-8 encoding of code point n, for n from 1 to 0x10FFFF. (Beyond that range the program aborts, for 0 the text is empty.) A reference &name; by name is kept as a reference with that name.", "quantifier": "every code point, every spelling with leading zeros and mixed case", "why_tests_cant": "1.1 million code points times all spellings", "anchors": ["src/main/c/xmq.c: create_entity, do_entity", "src/main/c/parts/text.c:encode_utf8"]}
{"id": "C52", "title": "An ixml grammar accepts the language it describes", "statement": "For every grammar written in invisible XML (rules, alternatives, literals, character sets, marks, renaming, insertions, groups, ? * + ** ++, comments, version declaration) and every content, the context free rules that xmq builds from the grammar text and restricts to the characters of the content accept the content exactly if the ixml grammar matches it.", "quantifier": "all grammars, all ways to write them, all contents", "why_tests_cant": "Grammars nest and each has infinitely many contents; a wrong expansion of one operator shows only for particular nestings.", "anchors": ["src/main/c/parts/ixml.c: parse_ixml, parse_ixml_rule, parse_ixml_alts, parse_ixml_term, parse_ixml_factor, parse_ixml_charset, make_last_term_*, scan_content_fixup_charsets"]}
{"id": "C53", "title": "An ixml parse gives the document the marks ask for", "statement": "For every ixml grammar and content, the elements, attributes and texts made from a parse are exactly those that ixml prescribes for the marks ^ @ -, the names, aliases and insertions of the grammar; and every result that ixml prescribes comes from some parse.", "quantifier": "all grammars, all contents, all parses", "why_tests_cant": "Marks, groups and repetitions interact; the generated helper rules must never show in the document.", "anchors": ["src/main/c/parts/ixml.c: parse_ixml_naming, parse_ixml_term, make_last_term_*, ixml_to_yaep_read_rule", "src/main/c/xmq.c: generate_dom_from_yaep_node, collect_text"]}
{"id": "C54", "title": "Reading an ixml grammar always answers", "statement": "For every text given as an ixml grammar the reader comes to an end and either accepts the grammar or reports a syntax error; it does not loop forever and does not abort.", "quantifier": "all byte strings", "why_tests_cant": "A loop or an assertion is reached only by particular malformed texts.", "anchors": ["src/main/c/parts/ixml.c: parse_ixml and all functions it calls, ixml_skip_whitespace, ixml_skip_comment"]}
{"id": "C55", "title": "A grammar that was read can be parsed with", "statement": "Every ixml grammar that the reader accepts is accepted by the parser; in particular the checks of the parser come to an end and refuse no grammar of the language.", "quantifier": "all grammars, all contents", "why_tests_cant": "The checks are fixpoint computations over the whole grammar; whether they end and are exact cannot be seen from samples.", "anchors": ["src/main/c/yaep/src/yaep.c: yaep_read_grammar, check_grammar, set_empty_access_derives, set_loop_p", "src/main/c/xmq.c: xmqParseBufferWithIXML"]}
{"id": "C56", "title": "What the parser knows about a grammar is exact", "statement": "For every grammar the parser accepts: a symbol is marked as empty exactly if it derives the empty string, as deriving exactly if it derives a string of terminals, as accessible exactly if it occurs in something derived from the start; FIRST, FOLLOW and the lookahead set of every rule position contain exactly the terminals that can come next.", "quantifier": "all accepted grammars, all symbols, all rule positions", "why_tests_cant": "A missing member of a lookahead set loses parses only for particular inputs; a set computed one round too short shows only in deep grammars.", "anchors": ["src/main/c/yaep/src/yaep.c: set_empty_access_derives, create_first_follow_sets, dotted_rule_set_lookahead"]}
{"id": "C57", "title": "The Earley parser accepts exactly the language", "statement": "For every grammar the parser has accepted and every text: the parser delivers a parse tree exactly if the text is derived from the start symbol, and otherwise reports a syntax error; it never stops without an answer and no assertion fails.", "quantifier": "all accepted grammars, all texts", "why_tests_cant": "Which items get into which set depends on grammar and text together; a lost item shows only for particular combinations of empty symbols.", "anchors": ["src/main/c/yaep/src/yaep.c: yaepParse, perform_parse, build_new_set, complete_empty_nonterminals_in_rule, expand_new_set, set_add_initial_dotted_rule, complete_and_predict_new_state_set, build_parse_tree"]}
{"id": "C58", "title": "The parse tree derives the text, and ambiguity is reported truthfully", "statement": "For every accepted grammar and text: the tree the parser delivers is a derivation of exactly this text by the rules of the grammar, and the parser reports the text as ambiguous exactly if there is another derivation tree.", "quantifier": "all accepted grammars, all texts", "why_tests_cant": "Ambiguity quantifies over all trees of the text; samples show one tree.", "anchors": ["src/main/c/yaep/src/yaep.c: build_parse_tree, build_new_set", "src/main/c/xmq.c: xmqParseBufferWithIXML (warning about ambiguity)"]}
{"id": "C59", "title": "A syntax error is reported at the first impossible character", "statement": "For every accepted grammar and every text without a parse: the text in front of the reported token begins something the grammar derives, and no text of the language begins with the text up to and including the reported token.", "quantifier": "all accepted grammars, all texts", "why_tests_cant": "The second half speaks about all continuations of the text.", "anchors": ["src/main/c/yaep/src/yaep.c: perform_parse, syntax_error", "src/main/c/xmq.c: handle_yaep_syntax_error"]}
{"id": "C60", "title": "Reading a text with an ixml grammar gives the document that ixml prescribes", "statement": "For every ixml grammar and every text given to xmqParseBufferWithIXML: if the grammar matches the text, the document gets one of the results which ixml prescribes for it, and without the warning about ambiguity there is no other; if the grammar does not match, the document is left as it is and the function returns false.", "quantifier": "all grammars, all texts", "why_tests_cant": "The claim joins the reader of grammars, the construction of rules, the checks, the Earley parser and the construction of the document; all of them quantify over grammars and texts.", "anchors": ["src/main/c/xmq.c: xmqParseBufferWithIXML, generate_dom_from_yaep_node, collect_text", "src/main/c/parts/ixml.c: scan_content_fixup_charsets, ixml_to_yaep_read_rule, ixml_to_yaep_read_terminal", "src/main/c/yaep/src/yaep.c: yaep_read_grammar, yaepParse"]}
{"id": "C61", "title": "An ixml grammar can be used for several texts", "statement": "For every ixml grammar that has been read: after it has been used for one text, reading another text with it gives the same result as with a fresh copy of the grammar.", "quantifier": "all grammars, all pairs of texts", "why_tests_cant": "State left behind by the first use shows only in sequences of calls.", "anchors": ["src/main/c/xmq.c: xmqParseBufferWithIXML", "src/main/c/parts/ixml.c: ixml_to_yaep_read_rule (yaep_j_), scan_content_fixup_charsets, add_single_char_rule"]}
{"id": "C62", "title": "Names belong to the namespaces which the declarations in scope say", "statement": "Every accepted xmq text is written as exactly one document of elements, attributes, values, comments, processing instructions and doctype. The name of each element and attribute is read into the namespace given by the nearest declaration of its prefix (or of the default) on the element itself or one that encloses it, declarations are kept, and values, comments and children are in the place where they are written.", "quantifier": "all texts, with any nesting and any order of declarations and uses", "why_tests_cant": "Scopes depend on the nesting of elements and on the order of attributes; a test shows one arrangement.", "anchors": ["src/main/c/xmq.c: do_element_ns, do_ns_colon, create_node, do_ns_declaration, do_attr_ns, do_attr_key, update_namespace_href, do_attr_value_text, do_attr_value_quote (2112-2664)", "src/main/c/parts/xmq_parser.c"]}
{"id": "C63", "title": "A processing instruction is read with its target and its value", "statement": "For every processing instruction ?name = value with a bare or quoted value, the document read contains a processing instruction with this target and exactly this value, at the place where it is written.", "quantifier": "all names and values", "why_tests_cant": "The value passes through quoting, trimming and unquoting; only particular first and last bytes show a difference.", "anchors": ["src/main/c/xmq.c: create_node, do_element_value_text, do_element_value_quote (2112-2210)", "src/main/c/parts/text.c: potentially_add_leading_ending_space"]}
{"id": "C64", "title": "Namespaces, processing instructions and the doctype survive printing as xmq", "statement": "For every document in which each prefix stands for the namespace it is declared to be: printing it as xmq, compact or pretty, and reading the output gives the same names in the same namespaces, the same declarations, attributes, values, comments, processing instructions and doctype.", "quantifier": "all documents, any nesting of declarations", "why_tests_cant": "Printing and reading work with different orders of attributes and declarations; only particular nestings and repetitions of prefixes show what is lost.", "anchors": ["src/main/c/parts/xmq_printer.c: print_element_name_and_attributes, print_namespace_declaration, print_attributes, print_attribute, print_doctype, print_pi_node, print_node", "src/main/c/xmq.c: do_element_ns, do_ns_declaration, do_attr_ns, update_namespace_href"]}
{"id": "C65", "title": "A log line is one line and is read as the values that were logged", "statement": "For every name, all keys and all values: xmqLinePrintf with name{, key= and value arguments and } returns text without line breaks which, read as xmq, is the element with that name that has one element per key containing exactly the value; hence different values give different lines. With name= and one value it is the element containing this value.", "quantifier": "all names, any number of keys, all values", "why_tests_cant": "Values may contain quotes, line breaks, braces and anything that looks like another field; only particular bytes in particular positions break the line or forge a field.", "anchors": ["src/main/c/xmq.c: xmqLinePrintf, xmqLineVPrintf, xmq_line_vprintf_xmq, xmq_line_vprintf_hr, buf_vsnprintf, xmqLineDoc, xmqCompactQuote (4671-4960)"]}
{"id": "C66", "title": "Lines of paths and C strings show every value of the document", "statement": "For every document printed as clines: the output has one line for each attribute, each text and each element without children, in document order, consisting of the path, an equal sign and a C string literal that stands for exactly the content; hence outputs of documents that differ in a path or a value differ.", "quantifier": "all documents, all contents", "why_tests_cant": "Which bytes need an escape, and whether the next byte is swallowed by it, depends on pairs of bytes in any text.", "anchors": ["src/main/c/xmq.c: xmq_print_clines, cline_print_node, cline_print_attr, cline_print_xpath (2808-2923)", "src/main/c/parts/text.c: xmq_quote_as_c (467-538)"]}
{"id": "C67", "title": "Text output is the text of the document, and text read is printed as it was", "statement": "For every document, text output is the concatenation of its texts in document order and nothing else. For every text, reading it as text, with or without an implicit root, and printing it as text gives the same bytes.", "quantifier": "all documents, all texts", "why_tests_cant": "The claim is about all trees and all bytes.", "anchors": ["src/main/c/xmq.c: xmq_print_text, text_print_node, text_print_nodes (2762-2806), xmq_parse_buffer_text (4003-4025)"]}
{"id": "C68", "title": "Sharing and remembering parser states does not change the parse", "statement": "For every grammar and every text: the Earley parser, which keeps one exemplar of equal state sets, compares them by address and reuses a remembered transition whenever the set, the terminal, the lookahead and the sets in which the dotted rules began are the same, gives the same sets and the same answer as if every set were computed anew, and the check reads only entries of the list of sets.", "quantifier": "all grammars, all texts, every history of the tables", "why_tests_cant": "Whether a remembered transition is found depends on the whole history of the parse; a wrong reuse shows only if two places agree in the key but not in the origins.", "anchors": ["src/main/c/yaep/src/yaep.c: set_insert (2113-2192), check_cached_transition_set, lookup_cached_set, save_cached_set, perform_parse (3784-3977)"]}
{"id": "C69", "title": "Trimming a document read from XML or HTML changes only whitespace", "statement": "For every document: xmqTrimWhitespace removes the texts and comments that are only whitespace; every other text and comment keeps its lines, in their order and except for blanks at their ends and blank lines; elements, attributes and entity references stay as they are and where they are. No memory outside a text is read.", "quantifier": "all documents, all texts and comments", "why_tests_cant": "Which bytes are removed depends on the indentation of all lines of a text; a wrong cut loses a visible character only for particular combinations of blanks and line ends.", "anchors": ["src/main/c/xmq.c: trim_text_node, trim_node, xmqTrimWhitespace (3005-3082), xmq_un_quote, xmq_trim_quote"]}
{"id": "C70", "title": "Writing a document as XML or HTML is faithful", "statement": "For every document: before it is written, comments are changed such that they contain no two dashes in a row, and fixing up the comments after reading gives the original comments back; inside style and script every reference is replaced by the text it stands for; nothing else changes. Writing a second time gives the same.", "quantifier": "all documents, all comments, all references", "why_tests_cant": "Only particular references inside two particular elements are affected, and only a second write of a document with particular comments differs.", "anchors": ["src/main/c/xmq.c: fixup_html, xmq_fixup_html_before_writeout, fixup_comments, xmq_fixup_comments_after_readin, escape_xml_comment, unescape_xml_comment (3153-3432), xmq_print_xml, xmq_print_html (2687-2728)"]}
{"id": "C71", "title": "Colours do not change the text", "statement": "For every document and every theme: what a terminal shows of the coloured output, with its colour sequences left out, and the text of the pre element of HTML output is byte for byte the output without colours; copied and read again it is the same document.", "quantifier": "all documents, all colours, all settings of the printer", "why_tests_cant": "Colours are written by every function of the printer, in the middle of tokens and around line breaks; a sequence or an escape in a wrong place shows only for particular characters.", "anchors": ["src/main/c/parts/utf8.c: print_utf8_char, print_utf8_internal, print_utf8 (11-170)", "src/main/c/parts/xmq_printer.c", "src/main/c/parts/xmq_internals.c: needs_escape, print_color_pre, print_color_post (271-343)", "src/main/c/parts/colors.c: generate_ansi_color", "src/main/c/xmq.c: setup_terminal_coloring, setup_html_coloring (256-470)"]}
{"id": "C72", "title": "The elements of coloured HTML are closed", "statement": "For every document: in HTML output every element is closed by its own end tag, in the right order, whatever the texts, names and comments contain. In TeX output every brace is closed.", "quantifier": "all documents, all texts", "why_tests_cant": "Quotes over several lines close and open their element at every line break; whether the last one is closed depends on where the newlines are.", "anchors": ["src/main/c/parts/xmq_printer.c: print_quote_lines_and_color_uwhitespace (952-1015), print_nl, print_nl_and_indent (597-624)", "src/main/c/xmq.c: setup_html_coloring, setup_tex_coloring (327-598)"]}
{"id": "C73", "title": "Highlighting a source text shows exactly the source", "statement": "For every source that is accepted and every theme: what xmqTokenizeBuffer with the colouring callbacks writes shows, in a terminal with the colour sequences left out and in a browser as the text of the pre element, byte for byte the source; every byte has the colour of the token it belongs to. TeX output typesets the same characters.", "quantifier": "all accepted sources, all colours, all kinds of tokens", "why_tests_cant": "The colour of a byte depends on the token that the whole source before it makes it part of; characters that need an escape matter only for one of the output formats.", "anchors": ["src/main/c/xmq.c: setup_terminal_coloring, setup_html_coloring, setup_tex_coloring (248-598), tokenize_TYPE (626-644), write_print_stdout (791-812), xmqTokenizeBuffer (911-986), xmqSetupParseCallbacksColorizeTokens (1658-1667)"]}
{"id": "C74", "title": "The token listing tells the source and where its tokens are", "statement": "For every source that is accepted: the listing has one entry for each token, in the order of the source, with its kind, its text written as in a C string, and its line and column in decimal. From the listing the tokens and so the source can be told; two different sources have different listings.", "quantifier": "all accepted sources", "why_tests_cant": "Whether two listings can be confused depends on what is escaped how, for all bytes and all neighbouring bytes, and on the space for the numbers.", "anchors": ["src/main/c/xmq.c: debug_token_TYPE, xmqSetupParseCallbacksDebugTokens, add_nl (1563-1591), xmq_quote_as_c"]}
{"id": "C75", "title": "A document survives the conversion to JSON and back", "statement": "For every document with a root element: it is written as JSON, what is written is a JSON text of RFC 8259, and reading that text gives the same document: elements, attributes with and without value, standalone texts, comments and repeated children, in the same order. Different documents are written differently, and a JSON text is read as at most one document. No object in the text has a key twice; an attribute is found under its name behind an underscore, and a child whose name occurs once under its name.", "quantifier": "all documents", "why_tests_cant": "Names, attributes, texts and comments share the keys of one object and are told apart by prefixes and indices; whether two of them can be confused depends on all names and on how often each occurs.", "anchors": ["src/main/c/parts/json.c: parse_json_quote, parse_json_null, parse_json_object (236-499, 1013-1100), json_print_object_nodes, json_print_node, json_print_attributes, json_print_element_with_children, json_print_standalone_quote, json_print_comment_node (863-1541)", "src/main/c/xmq.c: xmq_print_json (2733-2761)"]}
{"id": "C76", "title": "A root that is left out is supplied", "statement": "For every text and every name r: reading the text with the implicit root r gives the document that is read without it, with everything behind the processing instructions and the doctype put into one element named r, unless that is one element named r already.", "quantifier": "all accepted texts and all names", "why_tests_cant": "Whether the root is there depends on which kind of token comes first and on all that may stand before the first element; documents with one more comment behave differently.", "anchors": ["src/main/c/xmq.c: xmqParseBuffer (1827-1864), do_quote, do_entity, do_comment (1990-2080), create_node (2482-2555)", "src/main/c/xmq.h: xmqParseBuffer (588-596)"]}
{"id": "C77", "title": "Comments beside the root survive JSON", "statement": "For every document that is kept by the conversion to JSON and back, and all comments before and behind its root: the document with the comments is written as JSON, no object of it has a key twice, and reading it gives the same document with the same comments in the same order, those before the root before it and those behind it behind it. Different comments are written differently.", "quantifier": "all documents and all lists of comments before and behind the root", "why_tests_cant": "The comments are collected on two stacks and written into an object of the document, the ones behind in reverse, and are put on one or the other side of the root depending on what has been read before; which object takes them depends on the whole document.", "anchors": ["src/main/c/parts/json.c: parse_json_quote (266-276), json_print_element_with_children (1293-1375), json_print_comment_node (1467-1492), collect_leading_ending_comments_doctype (1647-1685)", "src/main/c/xmq.c: do_comment (2056-2085), xmq_print_json (2733-2761)"]}
{"id": "C78", "title": "Every token is the longest one", "statement": "For every accepted source, what follows a token never could have belonged to it: behind whitespace there is no more whitespace, a name goes up to a byte that names do not have (or to the colon behind a prefix), a value without quotes goes up to the end, to whitespace or to a byte it cannot have, and a line comment takes the rest of its line. The same holds for the tokens delivered before an error.", "quantifier": "all sources, accepted or not", "why_tests_cant": "Where a token ends depends on up to three bytes that follow it, in each of the places where the parser reads whitespace, names, values and comments.", "anchors": ["src/main/c/parts/xmq_parser.c: eat_xmq_comment_to_eol (155-178), eat_xmq_text_name, eat_xmq_text_value, eat_xmq_doctype, eat_xmq_pi (253-356), parse_xmq (461-496), parse_xmq_whitespace (1063-1071)", "src/main/c/parts/xmq_internals.c: eat_xmq_token_whitespace (212-237), count_whitespace"]}
{"id": "C79", "title": "Tokens do not cut characters", "statement": "For every source in UTF-8 that is accepted, the text of every token is in UTF-8: no token begins or ends inside a character. Conversely tokens in UTF-8 come from a source in UTF-8. When a source in UTF-8 is rejected, the tokens delivered before the error are in UTF-8, and the place of the error is between two characters.", "quantifier": "all sources in UTF-8, accepted or not", "why_tests_cant": "The parser works on bytes and tests some characters of two and three bytes for being whitespace; a value ends in front of them. A cut would only show with particular characters at particular places.", "anchors": ["src/main/c/parts/xmq_parser.c: parse_xmq and all it calls (33-356, 461-1071)", "src/main/c/parts/xmq_internals.c: eat_xmq_token_whitespace (212-237), count_whitespace", "src/main/c/parts/xmq_internals.c: is_safe_value_char (602-630)"]}
{"id": "C80", "title": "A colour is read as it is written and shown as it was read", "statement": "A text is read as a colour exactly if it is one of #rrggbb, #rrggbb_B, #rrggbb_U, #rrggbb_B_U, and with the numbers and marks that are written; every other text is refused. The sequence written for a terminal sets exactly this colour, bold and underline, whatever was set before, and fits into the buffer that is asked for; the rules written for HTML are a style sheet that can be read in one way, in which each name has its colour; the command for TeX defines it. All colours of the themes are of that kind.", "quantifier": "all texts, all colours, all lists of names and colours", "why_tests_cant": "Digits in two cases, two optional marks and numbers of one to three digits make many combinations; that a terminal or a browser reads the result as meant depends on where each number ends.", "anchors": ["src/main/c/parts/colors.c: string_to_color_def, hex_to_number, generate_ansi_color, generate_html_color, generate_tex_color, color_names (79-259)", "src/main/c/parts/default_themes.c: installDefaultThemeColors and the tables (35-109)", "src/main/c/xmq.c: add_color, setup_html_coloring (228-369)"]}
{"id": "C81", "title": "The shell command of for-each cannot be changed by the document", "statement": "For every command, every element and every environment: the command that /bin/sh gets depends on the command of the user alone. It is that command with the names in ${...} made of letters, digits and underscores, byte for byte at the same places, and everything outside of ${...} as it is. For each ${name} the environment has the variable with the content of the node: of the children of that name, of the whole element for `.`, its name for `..`. All variables of the environment are passed on. There is one call for each selected node, in order.", "quantifier": "all commands, elements, environments and selections", "why_tests_cant": "That no content of a document reaches the command line is a statement about all documents; the loop changes the string it runs over.", "anchors": ["src/main/c/xmq-cli.c: cmd_for_each (2259-2300), shell_safe, make_shell_safe_name, grab_name, append_text_node, append_text_children, grab_content, invoke_shell (3243-3445)"]}
{"id": "C82", "title": "References are deleted, replaced and substituted everywhere and nothing else is changed", "statement": "For every document: delete-entity leaves out every reference to the entity, replace-entity puts the text or the node into its place, substitute-char-entities puts the character in place of every reference by number; in attributes, in contents and at every depth, and everything else is met in the same order as before. How texts are divided into nodes does not matter.", "quantifier": "all documents, names, texts and nodes", "why_tests_cant": "Texts are joined with their neighbours while the list is walked; what happens depends on what is before and behind each reference and on where the reference is.", "anchors": ["src/main/c/xmq-cli.c: delete_all_entities, delete_entities (2511-2546), replace_entity, replace_entities, cmd_replace (2590-2691), substitute_entity, cmd_substitute (2693-2764), --with-file (992-1016)", "src/main/c/parts/xml.c: decode_entity_ref (274-287)"]}
{"id": "C83", "title": "What is loaded is exactly what is there, however the system portions it", "statement": "For every contents and for every way in which read and fread divide them, with interruptions in between: when loading succeeds, the buffer has exactly the contents of the standard input or of the file, its size is theirs and a NUL is behind them; when something is missing, an error is reported and nothing is parsed. Nothing is written outside of the buffer. Standard input and file are the same to the parser.", "quantifier": "all contents, all sequences of answers of the operating system", "why_tests_cant": "How a pipe or a file is portioned, and where a signal interrupts, cannot be chosen by a test.", "anchors": ["src/main/c/xmq.c: load_stdin, load_file, xmqParseFileWithType (4136-4255)", "src/main/c/parts/membuffer.c: membuffer_append_region, pick_buffer_new_size (66-97)"]}
{"id": "C84", "title": "Statistics are sums over the document", "statement": "For every document, the command statistics gives a document with the size of the source, the numbers of elements, texts, attributes, comments and CDATA sections and the bytes of their names and contents, at every depth, each in decimal digits; sum_meta and sum_text are the sums of them; a number is left out exactly if it is 0. Two documents with the same statistics have the same numbers.", "quantifier": "all documents", "why_tests_cant": "The counters are spread over a recursion with a branch for each kind of node; a test only sees the combinations of its documents.", "anchors": ["src/main/c/xmq-cli.c: accumulate_children, accumulate_attribute, accumulate_statistics, accumulate_attribute_content, count_statistics, add_key_value, cmd_statistics (2365-2509)"]}
{"id": "C85", "title": "The pager shows the whole text", "statement": "For every text, with whatever escape sequences, and every size of the terminal: what is drawn is the text from the beginning of a line on, unchanged; going on by pages from the beginning shows every byte but the ends of lines; going on by a line moves until the last row is on the screen. The place stays inside the text whatever keys are pressed. Going up undoes going down.", "quantifier": "all texts, sizes of the terminal and sequences of keys", "why_tests_cant": "The drawing and the scrolling count columns and rows in two different loops; whether they agree depends on the lengths of all lines and on where the escape sequences are.", "anchors": ["src/main/c/xmq-cli.c: count_non_ansi_chars, skip_ansi_backwards, skip_line_width_backwards, find_prev_line_start, find_prev_line, find_next_page, find_prev_page, find_next_line (2866-3060), page (3448-3561)"]}
{"id": "C86", "title": "The message of an error tells what is wrong and where", "statement": "For every input that is not xmq and every name of its source, the library gives a message with the source, the line and the column of a place of the input where what it complains about stands (an unexpected character, a quote that is not closed, an open parenthesis or brace that is not closed, an equals sign without content), the unexpected character with its number, and the line with a mark below the place. The warning about quotes points to the end of a quote. What the library gives is what the tool prints.", "quantifier": "all inputs, names of sources and errors of the parser", "why_tests_cant": "The place is remembered in several variables of the parser state which are set at different times; the message is cut together in fixed buffers. A test sees the lengths, characters and nestings it has chosen.", "anchors": ["src/main/c/parts/xmq_internals.c: generate_state_error_message (13-132), xmqParseErrorToString (343-382)", "src/main/c/parts/xmq_parser.c: possibly_need_more_quotes (997-1032), parse_xmq_quote (55-63, 111-116)", "src/main/c/xmq.c: xmqTokenizeBuffer (957-968), xmqDocError, xmqParseBuffer (1235-1245, 1846-1851)", "src/main/c/xmq-cli.c: 1117, 1171, 1916, 2314, 3947"]}
{"id": "C87", "title": "A command line means what it says", "statement": "A line that is accepted is options, at most one input, and commands with their arguments; what is run is to load the input, the commands in their order with exactly the settings that their arguments say (the last one wins), and what is missing of a conversion and an output. At most one conversion and one output are run. For the usual line the exit status is 0 and what is written, to the place that was named, is the conversion of the document edited by all commands; when a command fails nothing is written and the status is 1. Lines of this form are accepted. No line leads to undefined behaviour.", "quantifier": "all lists of arguments, all files and documents", "why_tests_cant": "There are 35 commands with some 60 options, in any order and number; a test has a few lines.", "anchors": ["src/main/c/xmq-cli.c: cmd_from, cmd_name, cmd_group (435-576), allocate_cli_command (626-650), handle_option (741-1203), handle_global_option (1446-1634), cmd_help (1636-1660), cmd_output (1981-2043), prepare_command (2764-2864), perform_command (3572-3633), xmq_parse_cmd_line (3635-3803), main (4022-4088)"]}
{"id": "C88", "title": "Documents are edited as the commands say", "statement": "For every document and every set of nodes found by an XPath: deleting leaves the document without these nodes and attributes, everything else is as it was and in its place; selecting gives a document of exactly these elements and texts (for an attribute its element), complete and in the order of the document; adding puts the nodes of a text behind the document; adding a root puts the document into one element. Only texts that meet are joined. The commands can follow each other in any order.", "quantifier": "all documents, all sets of places in document order, all sequences of commands", "why_tests_cant": "Nodes are unlinked and freed while the set is gone through, so that it matters which of them contain or follow others; and what a command leaves behind (which node is the last, whether a node knows its document) is only used by the next one.", "anchors": ["src/main/c/xmq-cli.c: cmd_delete (2193-2208), cmd_select (2210-2257), cmd_add (2301-2338), cmd_add_root (2340-2363), delete_xpath (2556-2588)", "src/main/c/parts/xml.c: xml_add_root_child (289-303), is_content_node, is_element_node (117-141)"]}
{"id": "C89", "title": "Reading without merging keeps every piece and changes no text", "statement": "With XMQ_FLAG_NOMERGE (--no-merge) every quote and every reference of the source is a node of its own, in the order of the source, character references included. Replacing in this document each character reference by the UTF-8 of its number and joining the texts that meet, in all elements and attributes, gives exactly the document that is read without the flag; there no texts meet and no character reference is left. Printed and read again with the flag the document is the same.", "quantifier": "all inputs, documents of any depth", "why_tests_cant": "The flag is looked at in two of the callbacks only, the others add nodes with functions that merge; tests have a few compound values. That both ways of reading agree on all nested values is a statement about two programs for all inputs.", "anchors": ["src/main/c/xmq.c: create_quote (1952-1988), create_entity (2001-2042), do_element_value_* (2112-2240), do_attr_value_* (2413-2480), merge_text (1836)", "src/main/c/xmq-cli.c: --no-merge (1572-1576)"]}
{"id": "C90", "title": "A value that is looked up is the value in the document", "statement": "xmqForeach calls the function for the nodes found by the XPath, in order and up to the first for which it says stop, and gives the number of nodes found. xmqGetString gives the value of the first node found: for an element or attribute its whole text, for a text the text; NULL if nothing is found or it is empty. xmqGetInt and xmqGetLong give the number that is written there.", "quantifier": "all sources, all documents and nodes in them, all functions", "why_tests_cant": "The functions look at the first child only. That this is the whole value depends on how texts were merged when the document was read, anywhere in it.", "anchors": ["src/main/c/xmq.c: xmqForeachRel (3759-3795), xmqGetName, xmqGetContent (3797-3817), catch_single_content (3819-3832), xmqGetIntRel (3839-3861), xmqGetLongRel (3868-3890), xmqGetStringRel (3902-3909)"]}
{"id": "C91", "title": "The tables of the Earley parser are sets", "statement": "Whatever is looked up, inserted, removed and cleared, in any order, and whatever the size asked for: a search ends and finds exactly the equal element that was inserted first and not removed since, an insertion keeps one of equal elements, the count is the number of elements. A table that gets full is enlarged without losing or doubling elements and never enlarged while it is enlarged. The hashes and equalities that the tables of the parser are made with fit together.", "quantifier": "all hashes, equalities, sizes and sequences of uses", "why_tests_cant": "Open addressing with double hashing goes wrong only for certain collisions, after removals, or when a table is full; that the search ends needs that sizes are primes, for all sizes.", "anchors": ["src/main/c/parts/yaep.c: hash tables (1617-1842), their users (3117-3126, 4265-4277, 6556-6620), hashes and equalities (3056-3091, 3349-3380, 3907-4027, 4443-4463)", "src/main/c/yaep/src/hashtab.c"]}
{"id": "C92", "title": "A character the grammar does not know is refused", "statement": "Every grammar with terminals up to U+10FFFF can be used. A text goes to the parser unchanged and with the end marker exactly if all its characters are terminals of the grammar; otherwise it is refused with the offset of the first one that is none.", "quantifier": "all grammars and texts", "why_tests_cant": "Characters are looked up in a vector between the smallest and the largest code; what lies between and is no terminal is read from memory that malloc gave, which in a test is mostly zero.", "anchors": ["src/main/c/parts/yaep.c: symb_find_by_code (3129-3156), symb_finish_adding_terms (3276-3305), tok_add (3760-3773), read_input (5394-5404), MAX_SYMB_CODE_TRANS_VECT_SIZE (2269)"]}
{"id": "C93", "title": "The sets of terminals and items of the Earley parser are sets", "statement": "For any number of terminals, any number of sets and whatever is put in, taken out, united, copied, cleared and asked for in any order, the sets of terminals answer like sets: whether a terminal is there, and whether something was changed. A pair of an item and a length is reported as present exactly if it was inserted since the set was cleared.", "quantifier": "all numbers of terminals, all sequences of uses, all items and lengths", "why_tests_cant": "Terminals are bits of words of 64 bits and items carry the number of the set in which they were inserted last; what goes wrong does so only at word boundaries, or for cells that are left over from an earlier set.", "anchors": ["src/main/c/parts/yaep.c: terminal_bitset_* (2256-2259, 3402-3534), dotted_rule_matched_length_set (4029-4093)"]}
{"id": "C94", "title": "Colours fit the terminal", "statement": "The theme named in XMQ_THEME is used whatever the terminal is. Without it a terminal that is asked and answers gets colours for a light background exactly if its background colour is bright, whatever comes behind the answer; a terminal described by COLORFGBG gets those for a dark one exactly if the last part is 0. The choice is defined and the program goes on for every environment and every answer. Without a terminal there are no colours unless they are asked for.", "quantifier": "all environments, all background colours, all answers of terminals", "why_tests_cant": "The answer depends on the terminal and there are 2^48 colours; the end of COLORFGBG is found by looking a fixed number of bytes behind a semicolon.", "anchors": ["src/main/c/xmq-cli.c: query_xterm_bgcolor (1256-1333), terminal_render_theme (1337-1445), main (4018-4031)"]}
{"id": "C95", "title": "A character written as a reference is that character", "statement": "With any settings a character that is escaped is written as a reference in ASCII that stands for it, and for no other, in HTML: by a name of HTML 4 or by its number. Read as XMQ the reference gives the character again.", "quantifier": "all characters, all settings", "why_tests_cant": "There are a million characters and a table of 140 names, any of which may be wrong.", "anchors": ["src/main/c/parts/entities.c: HTML_GREEK, HTML_MATH, HTML_MISC, toHtmlEntity (33-190)", "src/main/c/parts/xmq_printer.c: print_char_entity (626-673)"]}
{"id": "C96", "title": "Writing JSON joins texts and references and changes nothing else", "statement": "Before JSON is written, the texts and references of every element that has nothing else become one text with the characters they stand for. Elements, attributes and comments stay as and where they are, writing a second time changes nothing and writes the same, and a document that survives JSON is not changed at all. No text is lost.", "quantifier": "all documents", "why_tests_cant": "The document in memory is changed in place at any depth; which elements are changed depends on all their children.", "anchors": ["src/main/c/parts/json.c: fixup_json, xmq_fixup_json_before_writeout (1601-1645)", "src/main/c/parts/xml.c: xml_collapse_text, decode_entity_ref (210-287)", "src/main/c/xmq.c: xmq_print_json (2733-2761)"]}
{"id": "C97", "title": "What is printed, saved and shown is the output, without the declaration if so asked", "statement": "print, save-to and browse hand over the bytes of the output made before, all of them and nothing else. With --omit-decl exactly the XML declaration is left out. If not everything could be written, the command says so and fails. browse writes only into a file of the current directory whose name begins with xmq_browsing_.", "quantifier": "all documents, outputs of all lengths, all names of the input, all sizes of the disk", "why_tests_cant": "Lengths beyond the range of an int, full disks, declarations of all forms and hostile file names are beyond any set of test files.", "anchors": ["src/main/c/xmq.c: xmqPrint (2958-3003), xmq_print_xml (2686-2703)", "src/main/c/xmq-cli.c: cmd_output (1981-2043), console_write (3085-3094), browse (3199-3241)"]}
{"id": "C98", "title": "Objects of the Earley parser stay where and what they are", "statement": "The objects the parser makes on its stacks contain exactly the bytes put into them. Once finished an object is aligned, is never moved, changed or freed until the stack is emptied, and overlaps no other object. Whatever the order and sizes of the uses, nothing is read or written outside of the memory allocated or in memory given back. The same for objects of variable length, which may move.", "quantifier": "all contents of memory, all initial sizes, all sequences of uses", "why_tests_cant": "When memory is enlarged, moved and given back depends on the whole history; a test sees a few sizes and would not notice an access to memory that was freed.", "anchors": ["src/main/c/parts/yaep.c: OS_TOP_FINISH, OS_TOP_SHORTEN, OS_TOP_EXPAND, OS_TOP_ADD_BYTE, OS_TOP_ADD_MEMORY, OS_TOP_ADD_STRING (628-892), _OS_create_function, _OS_empty_function, _OS_add_string_function, _OS_expand_memory (1895-2015)", "src/main/c/parts/yaep.c: VLO macros (945-1182), _VLO_tailor_function, _VLO_add_string_function, _VLO_expand_memory (2067-2133)"]}
{"id": "C99", "title": "A parse tree is given back completely and every part of it once", "statement": "The result of the Earley parser is a graph in which nodes, alternatives and names are shared. Giving it back gives back every node that can be reached exactly once, every name (that has a character) exactly once, and nothing else. No memory is used after it was given back, and no assertion fails.", "quantifier": "all graphs without cycles, of any size and with any sharing", "why_tests_cant": "A double free or a leak depends on which nodes are shared how, which ambiguous grammars make in countless ways; most tests give trees without sharing.", "anchors": ["src/main/c/parts/yaep.c: free_tree_reduce, free_tree_sweep, yaepFreeTree (7342-7497)", "src/main/c/xmq.c: xmqParseBufferWithIXML (4651)"]}
{"id": "C100", "title": "The document of all parses has every parse and nothing else", "statement": "With --ixml-all-parses, wherever a part of the text can be read in several ways the document has one element AMBIGUOUS with all the readings the parser found, each once. Choosing one child of each such element gives the documents of the single parses, all of them and no others. Where there is only one reading the document is as without the option.", "quantifier": "all parse forests, any number of readings at any depth", "why_tests_cant": "Ambiguous grammars give forests whose number of parses grows exponentially; the tests have one with two parses at the top.", "anchors": ["src/main/c/parts/yaep.c: place_translation (6399-6433)", "src/main/c/xmq.c: collect_text, generate_dom_from_yaep_node (4442-4592)"]}
{"id": "C101", "title": "White space is kept or trimmed as asked", "statement": "The last option --trim decides whether a document is trimmed when it is read. Without it XML and HTML are trimmed and everything else is kept as it is; with --trim=none nothing is trimmed. Whether the XML parser already leaves out blanks makes no difference to the result.", "quantifier": "all sequences of options, all kinds of content, all documents", "why_tests_cant": "The decision is taken at three places from flags that add up; tests give one option at a time.", "anchors": ["src/main/c/xmq-cli.c: handle_global_option (1578-1601)", "src/main/c/xmq.c: xmq_parse_buffer_xml (3922-3933), xmq_parse_buffer_html (3961-3971), xmqParseBufferWithType (4098-4131)"]}
{"id": "C102", "title": "The pager does what the keys mean", "statement": "Whatever keys are pressed one after the other, the pager is at the place they lead to, has read exactly what the keys sent, and ends with q or Q and not before. Characters without a meaning, also beyond ASCII, have no effect. Escape ends it. It ends when the terminal is gone.", "quantifier": "all sequences of keys, all texts and sizes of the terminal", "why_tests_cant": "Keys are sequences of bytes of different lengths that must be told apart in any order; a test would need a terminal.", "anchors": ["src/main/c/xmq-cli.c: get_char (3063-3073), read_key (3158-3196), page (3478-3561)"]}
{"id": "C103", "title": "unquote-c gives back what quote-c was given", "statement": "For the text of a document quote-c gives one line in quotes, and unquote-c gives the text again, with or without the line break that --add-nl adds. Nothing of the document is lost without a word, and a document without text is no error.", "quantifier": "all documents, all texts in UTF-8", "why_tests_cant": "There are endlessly many texts; which of them come back depends on every byte.", "anchors": ["src/main/c/xmq-cli.c: cmd_quote_unquote (2093-2147)", "src/main/c/parts/text.c: xmq_quote_as_c, xmq_unquote_as_c (462-598)"]}
