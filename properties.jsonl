{"id": "C01", "title": "Next reads the text in order, then EOF for ever", "statement": "For a stream made from a text, the k-th call of Next returns the k-th code point of the text for k up to its length, and EOFChar on every later call, no matter which Peek, Cursor, Position and PositionLookup calls are made in between.", "quantifier": "every text, every number of calls, every interleaving with the observing calls", "why_tests_cant": "a test reads a few fixed texts; the claim is about every text and every interleaving of calls", "anchors": ["charstream.go: CharstreamString.Next, CharstreamString.next, NewCharstreamFromString"]}
{"id": "C02", "title": "Peek tells what Next will return and changes nothing", "statement": "Peek returns exactly the character the next call of Next returns (EOFChar at the end), and neither Peek, Cursor nor PositionLookup changes what any later call returns; Position changes nothing that later reading calls return.", "quantifier": "every stream state reachable by any sequence of calls, including streams with pushed-back characters at any depth", "why_tests_cant": "a side effect of an observing call may only show many calls later or in a state no test reaches", "anchors": ["charstream.go: Peek, Cursor, PositionLookup, Position of CharstreamString and CharstreamPrepend"]}
{"id": "C03", "title": "SkipSpaces takes exactly the white space run at the cursor", "statement": "SkipSpaces returns the longest run of white space characters starting at the cursor, consumes exactly those characters, and the character peeked afterwards is not white space (or is EOFChar).", "quantifier": "every stream state, every text, every of the 25 white space characters", "why_tests_cant": "the run may have any length, end at the end of input or cross from pushed-back characters into the text", "anchors": ["charstream.go: CharstreamString.SkipSpaces, CharstreamPrepend.SkipSpaces", "space.go: IsWhiteSpace"]}
{"id": "C04", "title": "Match succeeds iff the wanted text is next", "statement": "Match(t) reports success exactly when t is a prefix of what is left; it then returns and consumes exactly t. Otherwise it returns and consumes the common prefix plus the one character that differs (none at the end of input).", "quantifier": "every stream state and every wanted text, including the empty one", "why_tests_cant": "all pairs of text and input cannot be enumerated; failure at the end of input differs from failure in the middle", "anchors": ["charstream.go: CharstreamString.Match, CharstreamPrepend.Match"]}
{"id": "C05", "title": "Pushed-back characters are read again first, in order", "statement": "A stream with characters pushed back on it behaves, for Next, Peek, SkipSpaces and Match, like a stream over the pushed-back characters followed by what was left, however many times characters are pushed back on top of each other; the stream below is untouched until the pushed-back characters are used up.", "quantifier": "every nesting of pushed-back character sequences over every stream state, every sequence of calls", "why_tests_cant": "nesting depth is unbounded: rules nest and each level can push characters back", "anchors": ["charstream.go: newCharstreamPrepend, CharstreamPrepend"]}
{"id": "C06", "title": "Position is the true line and column of the next character", "statement": "Position returns the 1-based line (one more than the newlines before the cursor) and 1-based column (distance from the last newline) of the character Next would return, and nil exactly at the end of the text.", "quantifier": "every text and every history of Next, SkipSpaces, Match and Position calls on a text stream", "why_tests_cant": "the line table is updated incrementally by four different calls and may be updated twice for one character; only an invariant over all histories covers this", "anchors": ["charstream.go: CharstreamString.Position, positionMap.update, positionMap.lookup"]}
{"id": "C07", "title": "PositionLookup gives the true line and column of any character already read", "statement": "For every index below the cursor, PositionLookup returns the line and column of the character at that index as defined by the newlines of the text; for negative indexes and indexes at or beyond the cursor it returns nil.", "quantifier": "every text, every reading history, every index", "why_tests_cant": "the answer depends on how many lines have been read and on the kind of line the index is in; the repository's own test text starts with a newline and so misses the failing case", "anchors": ["charstream.go: CharstreamString.PositionLookup, positionMap.lookup"]}
{"id": "C08", "title": "Cursor counts the characters consumed", "statement": "Cursor equals the number of characters consumed so far; on a stream with pushed-back characters it is the index of the character that will be read next, as long as the pushed-back characters are the ones read just before.", "quantifier": "every stream state and every history of calls, at any nesting depth", "why_tests_cant": "histories are unbounded", "anchors": ["charstream.go: CharstreamString.Cursor, CharstreamPrepend.Cursor"]}
{"id": "C09", "title": "A stream shared by goroutines hands out every character exactly once", "statement": "When goroutines call Next concurrently on one stream, every character of the text is returned to exactly one caller, in text order of the moments the calls take effect; and concurrent Position calls by readers leave the stream as if they had run one after the other.", "quantifier": "every number of goroutines and every interleaving of their steps", "why_tests_cant": "schedules cannot be enumerated by running the code; a race shows only under particular interleavings", "anchors": ["charstream.go: CharstreamString (\"thread-safe\"), Next, Position and their use of lock"]}
{"id": "C10", "title": "The tree returned follows the grammar", "statement": "When evaluating a rule returns a node, the tree below it is shaped as the rules say: a leaf for a terminal carries a text the terminal allows, an option node has at most one child, a repetition node has children of its rule, a choice node one child of one of its alternatives, a concatenation one child per part in order, a block its open, content and close, a reference the tree of the rule it names.", "quantifier": "every grammar, every rule of it, every input stream, every white space flag", "why_tests_cant": "grammars, inputs and recursion depth are unbounded", "anchors": ["rule_*.go: Eval", "grammar.go: EvalRule, EvalRaw"]}
{"id": "C11", "title": "An optional part never makes a parse fail", "statement": "Evaluating an option rule always returns a node: with exactly one child when the inner rule matches, and with none, together with the inner rule's unused characters, when it does not.", "quantifier": "every grammar, inner rule, input stream and flag", "why_tests_cant": "the inner rule is arbitrary", "anchors": ["rule_option.go: OptionRule.Eval"]}
{"id": "C12", "title": "Repetition bounds are respected", "statement": "A node for {x}<min,max> has at least min children and, if max is not 0, at most max; evaluation fails exactly when fewer than min consecutive matches are found; with min 0 it never fails.", "quantifier": "every grammar, inner rule, bounds, input stream and flag", "why_tests_cant": "bounds and inputs are unbounded", "anchors": ["rule_repetition.go: RepetitionRule.Eval"]}
{"id": "C13", "title": "A choice takes the longest alternative of the first group that matches", "statement": "Evaluating a | b > c | d returns the alternative that uses most characters among the alternatives of the first group in which one matches; later groups are only tried when all earlier ones fail; two alternatives of equal, greatest length give an ambiguity error; and it fails only when no alternative matches or on ambiguity.", "quantifier": "every grammar, every list of groups of alternatives, every input stream and flag", "why_tests_cant": "numbers of alternatives and their lengths are unbounded; the tie check runs while the maximum is still growing, so it depends on the order of lengths", "anchors": ["rule_choice.go: ChoiceRule.Eval", "rule.go: mostGreedy"]}
{"id": "C14", "title": "A concatenation matches its parts one after the other", "statement": "A node for a concatenation has one child per part, in order, and each part is matched at the place where the previous part stopped; the concatenation uses exactly the characters its parts use.", "quantifier": "every grammar, every list of parts, every input stream and flag", "why_tests_cant": "the number of parts and the amount of look-ahead each part leaves behind are unbounded", "anchors": ["rule_concatenate.go: ConcatenateRule.Eval"]}
{"id": "C15", "title": "Annotations on a reference flip those of the rule", "statement": "Evaluating a reference gives the same result as evaluating the rule it names, with the tokenized, virtual and nondata marks of the node flipped exactly for the annotations written on the reference; a reference to an undefined rule fails with an error and consumes nothing.", "quantifier": "every grammar, name, annotation set, input stream and flag", "why_tests_cant": "the referenced rule is arbitrary", "anchors": ["rule_reference.go: ReferenceRule.Eval"]}
{"id": "C16", "title": "A literal matches exactly its own text", "statement": "A character, character sequence or string rule matches exactly when its text comes next on the stream - after any white space when the rule may skip it - and then the node's text is the literal; characters used are the skipped white space and the literal, nothing else; without skipping it never uses white space that is not in the literal.", "quantifier": "every literal, every input stream, every flag, including literals that begin with or consist of white space", "why_tests_cant": "all literals times all inputs; white space in the literal interacts with skipping", "anchors": ["rule_terminal_char.go: TerminalCharRule.Eval", "rule_terminal_chars.go: TerminalCharsRule.Eval", "rule_terminal_string.go: TerminalStringRule.Eval"]}
{"id": "C17", "title": "A range matches one character inside the range", "statement": "A range rule returns a node exactly when the next character (after optional white space) lies between its ends, and the node's text is that one character, which lies in the range.", "quantifier": "every pair of ends, every input stream, every flag", "why_tests_cant": "ranges cover up to a million characters and can contain or exclude white space", "anchors": ["rule_terminal_range.go: TerminalRangeRule.Eval"]}
{"id": "C18", "title": "A block is its open text, the content up to the first close, and the close", "statement": "For a block without escape, the content is exactly the characters between the open match and the first place where the close rule matches, no excluded text occurs in it, and the block fails if an excluded text comes before the close or the close never comes; with an escape, an escaped close or excluded text is part of the content and the escape itself is not.", "quantifier": "every block rule with literal open, close, escape and excludes, every input stream", "why_tests_cant": "content length and number of escapes are unbounded", "anchors": ["rule_block.go: BlockRule.Eval"]}
{"id": "C19", "title": "Evaluation never panics", "statement": "Evaluating any rule of any grammar against any stream never hits a slice-bounds panic.", "quantifier": "every grammar (also ones built by hand), rule, stream state, flag and recursion depth", "why_tests_cant": "slice bounds depend on lengths that only an invariant over all rules relates: unused characters are never more than characters read", "anchors": ["rule.go: EvalResult.charsUsed, mostGreedy", "rule_concatenate.go, rule_repetition.go, rule_choice.go, rule_block.go: slice expressions", "grammar.go: EvalRaw slice expressions"]}
{"id": "C20", "title": "A failed match gives back everything it read", "statement": "When evaluating a rule returns no node, all characters it read from the stream are reported as unused, so that pushing them back restores the input.", "quantifier": "every grammar, rule, stream state and flag", "why_tests_cant": "failure can happen after unbounded look-ahead at any nesting depth", "anchors": ["rule_*.go: Eval", "rule.go: EvalResult.CharsUnused"]}
{"id": "C21", "title": "CharsRead is what was consumed", "statement": "After an evaluation the characters reported read are exactly the characters consumed from the stream, and the unused ones are a suffix of them.", "quantifier": "every grammar, rule, stream state and flag", "why_tests_cant": "bookkeeping of pushed-back characters spans arbitrarily nested rules", "anchors": ["rule.go: EvalResult.CharsRead, CharsUnused", "rule_concatenate.go, rule_repetition.go, rule_choice.go, rule_block.go: Eval"]}
{"id": "C22", "title": "Parsing terminates", "statement": "For every grammar without left recursion and without repetition of a rule that can match nothing, evaluation returns on every input.", "quantifier": "every such grammar and every input", "why_tests_cant": "a test that hangs says nothing about other inputs; termination is a claim about all of them", "anchors": ["rule_repetition.go, rule_block.go: loops", "grammar.go: EvalRaw, EvalEmbed loops"]}
{"id": "C23", "title": "EvalEmbed keeps all text", "statement": "The children of the node EvalEmbed returns are, in order, the matches and the text between them; together they cover the sample without loss or duplication, text nodes are never empty and never adjacent.", "quantifier": "every grammar, rule name and sample", "why_tests_cant": "the number and place of matches are arbitrary", "anchors": ["grammar.go: EvalEmbed"]}
{"id": "C24", "title": "Parsing a document loses no text", "statement": "When Eval/EvalRaw succeeds, the nodes account for every character of the stream: the characters used by the successive root matches, in order, are the whole input.", "quantifier": "every grammar and input", "why_tests_cant": "look-ahead left over between root matches depends on the grammar and input", "anchors": ["grammar.go: EvalRaw"]}
{"id": "C25", "title": "The result of parsing does not depend on map order", "statement": "EvalRaw returns the same result whatever order the root rules and the matches are visited in.", "quantifier": "every grammar, every input, every pair of visiting orders", "why_tests_cant": "Go randomises map iteration; a test sees one order per run", "anchors": ["grammar.go: EvalRaw (range over rootRules and resultsMatched)"]}
{"id": "C26", "title": "RemoveVirtualNodes removes exactly the virtual subtrees", "statement": "After RemoveVirtualNodes no node below the top is virtual; every node that has no virtual node on the path to it is kept, unchanged apart from its children, in the original order.", "quantifier": "every tree", "why_tests_cant": "trees are unbounded", "anchors": ["node.go: Node.RemoveVirtualNodes", "ast.go: AST.RemoveVirtualNodes"]}
{"id": "C27", "title": "RemoveNonDataNodes removes exactly the nondata subtrees", "statement": "After RemoveNonDataNodes no node below the top is nondata; every node without a nondata node on the path to it is kept in order; removing virtual and nondata nodes commute.", "quantifier": "every tree", "why_tests_cant": "trees are unbounded", "anchors": ["node.go: Node.RemoveNonDataNodes", "ast.go: AST.RemoveNonDataNodes"]}
{"id": "C28", "title": "Merging sticky nodes keeps the text and leaves no sticky node", "statement": "MergeStickyNodes leaves no sticky node in the AST, keeps all characters of its leaves in order (it may only put in spaces), and merges exactly the maximal runs of adjacent sticky siblings: all other nodes stay.", "quantifier": "every list of trees", "why_tests_cant": "trees are unbounded and merging interacts with text spacing", "anchors": ["node.go: MergeStickyNodes, Node.MergeStickyNodes, Node.Text", "ast.go: AST.MergeStickyNodes"]}
{"id": "C29", "title": "Removing redundant nodes keeps names and text", "statement": "RemoveRedundantNodes keeps every named node that has text, in order, and all non-white-space characters of the text; no unnamed inner node is left below the node.", "quantifier": "every tree in which only leaves carry characters; these are all the trees the parser builds and the other simplifications return", "why_tests_cant": "promotion happens bottom-up over unbounded trees", "anchors": ["node.go: Node.RemoveRedundantNodes"]}
{"id": "C30", "title": "Eval's simplification levels", "statement": "The tree Eval returns contains no virtual node at level 1 and no virtual or nondata node at level 2, and no sticky node at any level other than raw; raw returns the tree of EvalRaw.", "quantifier": "every grammar, input, level and visiting order", "why_tests_cant": "grammars and inputs are unbounded", "anchors": ["grammar.go: Grammar.Eval", "ast.go: Level constants"]}
{"id": "C31", "title": "A grammar never has two rules with one name", "statement": "Whatever sequence of AddRule and ParseRule calls is made, a name that is defined stays defined as it was: a second definition is rejected with an error and changes no rule.", "quantifier": "every sequence of AddRule/ParseRule calls with any texts", "why_tests_cant": "call histories are unbounded", "anchors": ["grammar.go: Grammar.ParseRule, AddRule, GetRecord"]}
{"id": "C32", "title": "Validate accepts exactly the closed grammars", "statement": "NewGrammarFromString succeeds only if every rule referenced anywhere is defined; then evaluation of any rule never reports an undefined rule; and the root rules are exactly the rules no rule refers to.", "quantifier": "every grammar text, every rule, every input", "why_tests_cant": "references can be nested at any depth of any rule", "anchors": ["grammar.go: Grammar.Validate, AddUsage, NewGrammarFromString", "rule_reference.go: inReference"]}
{"id": "C33", "title": "Line numbers of rules are physical lines", "statement": "For a grammar made from a text, the line recorded for each rule is the 1-based number of the line of the text that defines it, with comments and blank lines counted; every line is blank, a comment or a rule.", "quantifier": "every grammar text", "why_tests_cant": "texts are unbounded", "anchors": ["grammar.go: NewGrammarFromString, ParseRule (maxLine)"]}
{"id": "C34", "title": "Parsing a definition always ends", "statement": "NewGrammarFromString, AddRule and ParseRule return a rule or an error for every text whatsoever.", "quantifier": "every text", "why_tests_cant": "malformed texts are unbounded; nesting recursion and loops have no explicit bound in the code", "anchors": ["grammar.go: parse, parseOne, NewGrammarFromString", "rule_*.go: in… functions"]}
{"id": "C35", "title": "Rule names are letters, digits and underscores", "statement": "Every rule a grammar contains has a name that starts with a letter and consists of letters, digits and underscores; a definition with any other name is rejected.", "quantifier": "every sequence of AddRule/ParseRule calls and every grammar text", "why_tests_cant": "names are unbounded", "anchors": ["rule.go: validateRuleName", "grammar.go: ParseRule"]}
{"id": "C36", "title": "A printed rule parses back to the same rule", "statement": "Parsing the text String() gives for a rule yields the rule again.", "quantifier": "every rule the parser can produce", "why_tests_cant": "rules nest without bound and literals can contain any character", "anchors": ["rule_*.go: String", "grammar.go: Grammar.parse"]}
{"id": "C37", "title": "A rejected definition leaves the grammar as it was", "statement": "When AddRule or ParseRule returns an error, the grammar behaves afterwards as if the call had not been made: same rules, same outcome of Validate, same roots.", "quantifier": "every grammar state and every rejected definition", "why_tests_cant": "errors can occur after any prefix of the definition was processed", "anchors": ["grammar.go: ParseRule, AddRule, AddUsage"]}
{"id": "C38", "title": "Parsed rules are well-formed", "statement": "Every rule the parser produces, at any depth, has: at least two parts in a concatenation, at least two alternatives and no empty group in a choice, repetition bounds with max 0 or min <= max below 2^32, non-empty character literals, and references with valid identifiers.", "quantifier": "every definition text accepted by the parser", "why_tests_cant": "definitions are unbounded", "anchors": ["grammar.go: parse", "rule_choice.go: inChoice", "rule_repetition.go: inRepeatSpec", "rule_terminal_char.go: inChar"]}
{"id": "C39", "title": "Unicode escapes denote the code point written", "statement": "A backslash-u escape with four hex digits, alone or in quotes, denotes exactly the character with that number; any other continuation is rejected.", "quantifier": "every sequence of characters after the backslash", "why_tests_cant": "65536 escapes in both letter cases, in several syntactic places", "anchors": ["rule_terminal_char.go: inUnicode, parseUnicodeEscape"]}
{"id": "C40", "title": "EOF matches exactly at the end", "statement": "The builtin EOF rule matches exactly when no character is left (after optional white space when skipping is suggested), uses nothing but that white space, and the node it produces contributes no text.", "quantifier": "every stream state and flag", "why_tests_cant": "stream states are unbounded", "anchors": ["rule_eof.go: EOFRule.Eval"]}
{"id": "C41", "title": "The result does not depend on where evaluation is tried from", "statement": "Evaluating a rule depends only on the characters left: two streams with the same characters left - for example one with characters pushed back and a fresh one over the same text - give the same match, the same text and the same characters read and unused.", "quantifier": "every grammar, rule, flag and pair of streams with the same characters left", "why_tests_cant": "rules are evaluated on arbitrarily nested push-back streams during a parse, tests only on fresh ones", "anchors": ["rule_*.go: Eval", "charstream.go: CharstreamPrepend"]}
{"id": "C42", "title": "Evaluation only consumes", "statement": "Evaluating any rule only moves the stream forward: what is left afterwards is a suffix of what was left before, and the line/column bookkeeping stays right.", "quantifier": "every grammar, rule, stream state and flag", "why_tests_cant": "composite rules wrap and unwrap push-back streams at every level", "anchors": ["rule_*.go: Eval", "charstream.go"]}
{"id": "C43", "title": "The order of rule definitions does not matter", "statement": "Two grammar texts that define the same rules in a different order of lines give grammars that evaluate every rule name on every sample to the same result and have the same set of roots.", "quantifier": "every grammar text and every permutation of its lines, every rule name and sample", "why_tests_cant": "permutations and grammars are unbounded", "anchors": ["grammar.go: NewGrammarFromString, EvalRule, Validate"]}
{"id": "C44", "title": "Simplifying twice changes nothing more", "statement": "RemoveVirtualNodes, RemoveNonDataNodes, MergeStickyNodes and RemoveRedundantNodes are idempotent.", "quantifier": "every tree or list of trees", "why_tests_cant": "trees are unbounded", "anchors": ["node.go", "ast.go"]}
{"id": "C45", "title": "Merging does not change which text is virtual or nondata", "statement": "The characters left after merging sticky nodes and then removing virtual (or nondata) nodes are those left by removing them from the unmerged tree.", "quantifier": "every list of trees", "why_tests_cant": "trees and mark combinations are unbounded; the failure needs a virtual node at the front of a sticky run", "anchors": ["node.go:132-184", "node.go:77-90", "grammar.go:306-321"]}
{"id": "C46", "title": "The text of a match is the text it uses", "statement": "When a rule matches, the text of the node it returns is, white space aside, the text of the characters the result says were used: no character is invented, dropped, repeated or moved inside the tree.", "quantifier": "every grammar, rule, flag and input", "why_tests_cant": "trees are arbitrarily deep and the characters go through every combination of evaluators and look-ahead hand-overs", "anchors": ["rule_*.go: Eval", "node.go: Text", "rule.go: countCharsUsed"]}
{"id": "C47", "title": "Every failed evaluation reports an error", "statement": "When EvalRule returns a result without a node, the result carries an error; and an error that says a rule is not defined names a rule that is indeed not defined and that the evaluated rule refers to, directly or through other rules.", "quantifier": "every grammar, rule name and sample", "why_tests_cant": "the ways a nested rule can fail are unbounded", "anchors": ["rule_*.go: Eval", "grammar.go: EvalRule"]}
{"id": "C48", "title": "A definition means what the notation says", "statement": "ParseRule and AddRule accept a definition exactly when its name is a new valid name and its text can be derived in the notation (quoted strings and characters, ranges, groups, options, repetitions with bounds, blocks with excludes, choices, concatenations and the marks $ # ~, with white space between parts); the rule that results is the one the derivation describes, and no text has two derivations with different rules.", "quantifier": "every name, every text and every grammar defined so far", "why_tests_cant": "the texts are unbounded and nest without limit; unambiguity is a statement about all derivations of all texts", "anchors": ["README.md: Rule Types", "grammar.go: ParseRule, AddRule, parse, parseOne", "rule_*.go: parse methods"]}
{"id": "C49", "title": "The error of a grammar text names the first faulty line", "statement": "When NewGrammarFromString rejects a text with an error that names line n, every line before n is blank, a comment or a definition with a new name, and line n is faulty in the way the error says: no '=', a name that is none, a name defined in an earlier line (and the line named is the line of that definition), or a text that is no definition; the error has the name of the rule, and its reason is true of the text. An error without a line number means every line is in order and some rule referred to is not defined. Conversely the first faulty line is the one reported, whatever follows it.", "quantifier": "every grammar text", "why_tests_cant": "texts are unbounded and the faults can follow each other in any order", "anchors": ["grammar.go: NewGrammarFromString, ParseRule, Validate"]}
{"id": "C50", "title": "Nodes carry the place of their text", "statement": "The leaves of the trees that EvalRule and EvalRaw return are pieces of the input that follow each other from its beginning to the end of the used text (for EvalRaw: to the end of the document), with nothing but white space between them, and the Position of every node is the line and the column of the first character of its text. The children that EvalEmbed returns are the sample cut into pieces from its beginning to its end, and the matches among them carry their place in the sample in the same way.", "quantifier": "every grammar, rule, sample and document, and every visiting order of the maps", "why_tests_cant": "grammars nest without limit, and positions are looked up through stacks of push-back streams whose depth depends on the input", "anchors": ["node.go: Node.Position", "rule_*.go: eval methods", "charstream.go: Position, PositionLookup, Cursor", "grammar.go: EvalRule, EvalRaw"]}
{"id": "C51", "title": "Which error is reported, and where", "statement": "A choice that does not match (and is not ambiguous) reports the error and the ErrIdx of the alternative that got furthest when each is tried on its own at the place of the choice, the first of them if there are several. A concatenation that does not match reports the error and the ErrIdx of the first part that does not match, tried where the parts before it end. A repetition reports the error of the match that was missing, or too few at the end of the text. A block reports the error of its open rule, or that an excluded text was found, or that the text ended before the close. A terminal says whether any text was left. ErrIdx is never beyond what was read of the text.", "quantifier": "every grammar, rule, flag, text and place in it", "why_tests_cant": "the error travels through any nesting of rules, and the place is computed through stacks of push-back streams", "anchors": ["rule_choice.go: Eval", "rule_concatenate.go: Eval", "rule_repetition.go: Eval", "rule_block.go: Eval", "rule_terminal_char.go, rule_terminal_chars.go, rule_terminal_range.go, rule_terminal_string.go, rule_eof.go: Eval", "rule.go: EvalResult.Error, EvalResult.ErrIdx", "charstream.go: Cursor"]}
{"id": "C52", "title": "The counters count", "statement": "CountNodes of a tree is the number of its nodes, CountTokens the number of its leaves, CountStickyNodes the number of its sticky nodes, at any depth, each node counted once; the counters of an AST are the sums over its trees.", "quantifier": "every tree and every list of trees", "why_tests_cant": "trees nest and branch without limit", "anchors": ["node.go: CountNodes, CountTokens, CountStickyNodes", "ast.go: CountNodes, CountTokens, CountStickyNodes"]}
{"id": "C53", "title": "The text of a tree", "statement": "Text of a node is the characters of its leaves from left to right, with one space between the texts of two neighbouring children unless both are sticky, the node is of a block, or there is white space already; nothing else is added. The text of a leaf is its characters, without the end mark. Text of an AST is formed from its trees in the same way.", "quantifier": "every tree and every list of trees", "why_tests_cant": "trees nest and branch without limit, and where spaces go depends on the marks and the empty texts around", "anchors": ["node.go: Text", "ast.go: Text"]}
{"id": "C54", "title": "StringTree shows every node at its level", "statement": "The lines of StringTree are those of the nodes of the tree in order, a node before those below it, each node once, with one rail for every level above it and a fork in front of its first line, the last child of a node with another fork and an empty rail. A header tells line, column, name, rule type and marks: two different ones are never shown alike. AST.StringTree shows its trees like this below a title, the file name and their number.", "quantifier": "every tree EvalRule, EvalEmbed, EvalRaw and Eval return for any grammar and text at any level, and every config", "why_tests_cant": "trees nest and branch without limit, and texts may contain newlines", "anchors": ["node.go: StringTree, header", "ast.go: StringTree", "charstream.go: Position.String"]}
{"id": "C55", "title": "Nothing beyond the next character matters", "statement": "The whole result of an evaluation (tree, positions, errors, characters read and left) and what it does to the stream depend only on the characters it consumes and the one after them: if the cursor is k afterwards, any text with the same first k+1 characters (ending at the same place if it ends there) gives the same result and the same cursor. The same for EvalRaw and Eval, whether they return trees or an error. EvalRule shows how far it read in CharsRead.", "quantifier": "every grammar, rule, flag, stream and text, every order of visiting maps", "why_tests_cant": "it is about all texts that share a beginning, and all grammars", "anchors": ["rule_*.go: Eval", "charstream.go", "grammar.go: EvalRule, EvalRaw, Eval"]}
{"id": "C56", "title": "Names of rules are only names", "statement": "Take two grammar texts whose definitions are the same up to names: a one-to-one change of the rule names turns those of one text into those of the other (in any order, on any lines; the empty name, EOF and the _ of text nodes stay). Then both are accepted or none; EvalRule and EvalEmbed of a rule under its new name give the same result with the names in the tree and in the error replaced, same positions, marks, errors and characters; the roots correspond; every outcome of EvalRaw and of Eval at every level with one grammar is, renamed, an outcome with the other. Text and node counts of a tree do not depend on names.", "quantifier": "every pair of such texts, every rule, sample, stream, level and order of visiting maps", "why_tests_cant": "it is about all grammars, all renamings and all inputs; a dependence on a particular name or on the order of names shows only for particular names", "anchors": ["grammar.go: GetRecord, Validate, EvalRule, EvalEmbed, EvalRaw, Eval", "rule_reference.go: Eval", "node.go: RemoveRedundantNodes, MergeStickyNodes, Text"]}
{"id": "C57", "title": "Errors name the rule they come from and have a text", "statement": "The error of an evaluation is made by the rule evaluated or by a rule it contains or refers to: a 'missing' names a terminal among these, a repetition too short names that repetition and a number below its minimum, a reference to nothing names a name with no rule, a 'not allowed' comes from a block with excluded texts, and a concatenation or choice puts its own description before the error of one of its parts. In a grammar built by definitions (whatever calls failed on the way) making the text of an error of EvalRule never panics. What the error says is true of the text: the rule reported missing at a position does not match there, the end of the text is reported only at the end of the text, and an excluded text occurs in the text. The description of a rule in a text names every part that has no name of its own to hide behind, and the bounds of a repetition.", "quantifier": "every grammar built by AddRule/AddRuleWithLine, every rule and sample", "why_tests_cant": "error texts are made by every rule of every grammar, at every depth; a panic in a description shows only for particular rules", "anchors": ["rule_*.go: desc, Eval", "rule.go: evalExclude", "grammar.go: EvalRule"]}
{"id": "C58", "title": "Grammars in which one character decides are parsed without surprises", "statement": "Whether one character decides which alternative of a choice to take, whether an optional part is there and whether a repetition goes on, and whether no rule begins with itself, can be checked on the grammar alone. For a grammar that passes, and any text whose white space is ASCII: EvalRule of any rule returns; it never reports an ambiguity for a choice, at most one alternative of a choice matches and its tree is the child; the tree contains the characters used and the leaves are where their positions say; a rule that does not match has used nothing and gives back what it read, and what its error says is so; the result depends on nothing beyond what was read and one more character. EvalEmbed of a rule that cannot match nothing returns, with the matches from left to right and the text between them. If the same holds of its roots (at most two), EvalRaw returns the same trees, or the same failure, in whatever order the roots are tried; the trees follow each other without a gap to the end of the text.", "quantifier": "every grammar that passes the check, every rule and text", "why_tests_cant": "infinitely many grammars and texts; the look-ahead of rules interacts in ways that show only for particular combinations", "anchors": ["rule_*.go: Eval", "grammar.go: EvalRule, EvalEmbed, EvalRaw"]}
{"id": "C59", "title": "On grammars decided by one character, exactly the texts of the language are accepted", "statement": "A grammar describes a language: the texts that can be read as a rule when any alternative may be taken, any optional part left out and any number of repetitions between the minimum and the maximum made (white space before a part depends on the part before it). Whatever EvalRule returns for a predictive grammar is such a reading. Conversely, if in addition the characters with which alternatives begin differ, and what follows an option, a repetition or a root never begins with a character with which that could go on, which can be checked on the grammar alone: a sample that can be read as a rule is accepted by EvalRule, with that tree and all its characters; there is at most one reading; a sample of which a beginning can be read and cannot go on is read so far. The same holds of EvalRaw and documents made of root rules, in whatever order the roots are tried.", "quantifier": "every grammar that passes the check, every rule, text and reading", "why_tests_cant": "whether some reading of a text exists that the parser misses is a statement about all readings of all texts", "anchors": ["rule_*.go: Eval", "grammar.go: EvalRule, EvalRaw"]}
{"id": "C60", "title": "A grammar written as text lists every rule once, in the order of the definitions", "statement": "Serialize of a grammar lists every rule exactly once, by line number, with its line, its name and its definition; the order in which Go visits the map of rules has no effect on this list. The definitions begin in the same column while line numbers are below 10000. '!' stands before exactly the virtual rules; after Validate '[T]' stands behind exactly the rules that refer to no rule. If every definition was accepted, the root rules listed are exactly those no other rule refers to, and every other rule is listed once in the reference map with the rules that refer to it, in order and as often as they do. For rules that print faithfully (C36), what stands right of the first '=' of the row of a rule reads back as that rule. With details every rule is followed by a line for each of its parts, indented by its depth. The description of a result (StringTree) can always be made and shows the characters read and unused with their numbers and the tree or the error.", "quantifier": "every grammar made by any sequence of calls, every order of the maps, every rule", "why_tests_cant": "the order in which a Go map is visited differs from run to run; grammars are infinitely many", "anchors": ["grammar.go: Serialize, StringRuleRelation", "rule_*.go: StringWithIndent", "rule.go: EvalResult.StringTree"]}
{"id": "C61", "title": "The error of a rejected document names the root rules and gives a true reason for each", "statement": "If EvalRaw (hence Eval at any level) rejects a document, the text of its error can be made (no panic), and has one of three forms. 'Empty Stream/EOF encountered' exactly for an empty document. 'must be ...: ...': the descriptions of all root rules, joined by commas and 'or', and for every root rule one error, which is an error this rule (or a rule it refers to) gives. 'ambiguity found: a(...) vs b(...)' with the names of two different root rules that match with the same number of characters (unless they are only other names for a rule). The fourth error of the code, 'no AST node found', never comes up. If the document is orderly, the root rules match one after the other up to a place at which none of them matches, the errors reported are those of the root rules at this place, and what they say is so in the text; the order in which Go visits its maps can only change the order of the errors (and their positions within C07).", "quantifier": "every grammar made by any sequence of calls, every document, every order of every map", "why_tests_cant": "the order of the maps differs from run to run, so does the text; grammars and documents are infinitely many; a test compares one text", "anchors": ["grammar.go: EvalRaw, desc", "rule.go: EvalResult"]}
{"id": "C62", "title": "Texts are bytes: reading, splitting and trimming them is the same as working on the characters", "statement": "Grammars, rule names and samples reach the library as Go strings, which are bytes that need not be UTF-8. They are read as the standard says: bytes that stand for a character are read as this character, every other byte as U+FFFD, and there is exactly one such reading; so no text ever contains the end-of-file character. NewGrammarFromString and AddRule, which split, trim and compare bytes before they read characters, give the grammar (or the error) of the characters the bytes are read as; GetRecord, EvalRule and EvalEmbed find a rule by bytes exactly if its name is what the bytes are read as. Well-formed bytes that are read and written again are the same bytes, and so are characters that are written and read; the indentation made by the printers on bytes is the one made on characters.", "quantifier": "every list of bytes, well-formed or not; every grammar made by any sequence of calls", "why_tests_cant": "a test tries a few texts, mostly ASCII; bytes that are no UTF-8, white space of several bytes at the end of a line and bytes of '=' or newline next to broken sequences are infinitely many", "anchors": ["charstream.go: NewCharstreamFromString", "grammar.go: NewGrammarFromString, AddRule, ParseRule, GetRecord, EvalRule, EvalEmbed", "rule.go: validateRuleName"]}
{"id": "C63", "title": "The errors of definitions are true, and a message tells line, rule and reason", "statement": "When ParseRule, AddRule or NewGrammarFromString return an error, what it says is so: the name is none, or already defined (and the line named is that of the definition), or there is no '=' in the text, or the definition cannot be read - and then, at the place where reading stopped, what the message claims is the case (the character it shows is the next one and begins nothing, the bracket it misses was opened and the text ends before it is closed, the number it shows does not fit into 32 bits or is less than the minimum, and so on for each message). The name Validate complains about is referred to and not defined, whatever the order of the map, and every such name can be the one. Two equal messages about rules with proper names are about the same line, the same rule and the same reason. Ten of the messages are never seen.", "quantifier": "every grammar, name and text; every order of the map", "why_tests_cant": "a test looks at a few faulty texts; that a message is never given for another reason, and never misleads, is about all of them", "anchors": ["grammar.go: ParseRule, AddRule, Validate, NewGrammarFromString, parse", "rule.go: validateRuleName", "rule_*.go: parse functions"]}
{"id": "C64", "title": "The command writes the grammar and the tree of every document, in order, until the first error", "statement": "The command /repo/main/xbnf.go reads the rules of the file named with -xbnf and then those given with -rule, in their order; it stops with the message of NewGrammarFromFile or AddRule at the first that is not accepted. It writes the grammar, with a line of its own for a reference to a rule that does not exist. Then it writes for each -text and after them for each -file the tree Eval gives, without virtual, nondata and sticky nodes, and stops at the first document that cannot be read or is rejected, with the message of Eval. NewGrammarFromFile accepts exactly the files whose characters NewGrammarFromString accepts, with the same grammar, and its errors are those of NewGrammarFromString behind the file name. The command never panics, and ends if there is no document. Rules on the command line are as good as rules in the file.", "quantifier": "every list of arguments, every content of the files, every order in which Go visits its maps", "why_tests_cant": "a test runs the command on a few files; that nothing is skipped, reordered or written twice, and that no file makes it panic, is about all arguments and all contents", "anchors": ["main/xbnf.go: main", "grammar.go: NewGrammarFromFile"]}
{"id": "C65", "title": "Only the rules a rule needs matter", "statement": "What EvalRule and EvalEmbed give for a rule depends only on the rules it needs: itself and, again and again, those it refers to. Two grammars that have the same rules under these names give the same results, errors included. So rules defined later, rejected definitions and Validate change nothing for a rule whose needs are met; in a grammar made from a text that is every rule. Documents depend on nothing but the root rules and what they need: the rules no root rule needs can be left out of the text, which is then still accepted, and every document has the same outcomes.", "quantifier": "every pair of grammars, every rule, every sample and document, every later history of calls, every map order", "why_tests_cant": "a test evaluates particular grammars; that some other definition, anywhere, has no influence is a statement about all of them", "anchors": ["rule_reference.go: RuleReference.Eval and grammar.GetRecord", "grammar.go: EvalRule, EvalEmbed, EvalRaw, AddRule, Validate"]}
{"id": "C66", "title": "Every text can be written as a literal, every finite set of texts as a rule", "statement": "Every text can be written between double or single quotes in the way README.md gives (a quote as \\u0022 or \\u0027, a backslash twice, a newline as \\u000a). A rule that lists texts in double quotes, with | between them, none of them another one with white space before it, is accepted by NewGrammarFromString, and on every sample EvalRule finds the longest of the texts that come next (after white space), gives a node with this text, and fails exactly if none of them comes next. So it reads a whole sample exactly if the sample is one of the texts, with white space before it or not. In single quotes, every non-empty text is read by its rule as a whole, with this text.", "quantifier": "every finite list of texts, every way to write them, every rule name, every sample", "why_tests_cant": "tests try a few literals; that every character sequence has a writing that survives the definition parser and is then matched as itself, alone and beside any other texts, is a statement about all of them", "anchors": ["rule_terminal_char.go: inChar, parseUnicodeEscape", "rule_terminal_string.go: inString, TerminalStringRule.Eval", "rule_choice.go: ChoiceRule.Eval", "grammar.go: NewGrammarFromString, EvalRule", "README.md: Terminals"]}
{"id": "C67", "title": "Parentheses group and change nothing else", "statement": "Parts of the rules of a grammar can be put in parentheses, at any depth, without a change in what is read: EvalRule accepts the same samples, uses and reads the same characters, and gives the same tree but for the nodes of the parentheses, with the same text and the same named nodes. As the code is, this holds for parts that are not options, and where the evaluation without the parentheses is regular (for predictive grammars on every sample); it is false for an option, which in parentheses is no longer skipped with the white space, for parts of a concatenation, since concatenation is not associative, and for ambiguous choices.", "quantifier": "every pair of grammars that differ by such parentheses, every rule, every sample with a regular evaluation", "why_tests_cant": "tests compare a few pairs of grammars on a few samples; which parentheses are harmless is a statement about all grammars and all samples", "anchors": ["rule_group.go: GroupRule.Eval", "rule_option.go: OptionRule.Eval", "rule_concatenate.go: ConcatenateRule.Eval", "grammar.go: EvalRule", "README.md: Group"]}
{"id": "C68", "title": "Parts of rules can be named, references can be written out", "statement": "Give a part of a rule a name of its own and refer to it, or write out in the place of a reference (without a mark) the rule it refers to, at any depth and in any number of rules, recursive ones included. Nothing else changes: EvalRule and EvalEmbed for every other rule give the same tree, but for the introduced names, an error in the same cases and at the same character, and the same characters used, read and left. If the root rules stay the same, EvalRaw makes the same of every document, in some order of its maps, and conversely.", "quantifier": "every pair of grammars that differ in this way, every other rule, every sample and document, regular or not", "why_tests_cant": "tests compare a few pairs of grammars on a few samples; that a reference is never anything else than what it refers to (for white space, errors, ambiguity, look-ahead) is a statement about all rules in all contexts", "anchors": ["rule_reference.go: RuleReference.Eval", "grammar.go: EvalRule, EvalEmbed, EvalRaw", "README.md: Reference"]}
{"id": "C69", "title": "A grammar text is the same as its definitions added one by one", "statement": "NewGrammarFromString on a text has the outcome of New, a call of AddRule with each line that is neither blank nor a comment, in order, until one is rejected, and one call of Validate: it succeeds in the same cases, leaves the same grammar (rules, uses, roots, terminals) but for the line numbers, and otherwise reports the same reason. The two grammars evaluate every rule and every document alike. Definitions that AddRule accepts one after the other it accepts in every other order, Validate then accepts all these grammars or none, and they have the same roots and give the same results.", "quantifier": "every text, every list of definitions and every permutation of it, every rule, every sample and document", "why_tests_cant": "tests build a few grammars one way or the other; that the two ways never differ, in success, failure and all later results, is a statement about all texts", "anchors": ["grammar.go: NewGrammarFromString, New, AddRule, ParseRule, Validate", "README.md: usage"]}
{"id": "C70", "title": "Annotations only mark nodes", "statement": "The annotations ~ (virtual), # (nondata) and $ (token), on a definition, a part of it or a reference, do not influence what is matched. Two grammar texts whose definitions differ in annotations only are both accepted or both rejected and have the same roots. EvalRule and EvalEmbed give the same results, with the same characters read and unused, the same counters, errors and trees, but for the marks of the nodes and of the rules quoted in errors; EvalRaw can give the same nodes but for the marks. Eval gives the same trees when the differing annotations have nothing to say about the level: $ at every level, # at the raw level only, ~ at the raw and the basic level.", "quantifier": "every choice of annotations, every pair of grammar texts that differ in them, every rule, sample, document, order of visiting maps and level", "why_tests_cant": "a test compares one annotated grammar with one that is not on a few samples; independence of a mark is a statement about pairs of runs over all grammars and inputs", "anchors": ["rule.go: ruleBase", "rule_reference.go: Eval", "ast.go: levels", "grammar.go: Eval, EvalRaw, EvalRule, EvalEmbed", "README.md: Rule Annotation"]}
{"id": "C71", "title": "A token is not merged with its neighbours", "statement": "The node of a rule annotated with $ is treated as a token: Eval, at every level but for what ~ and # remove, keeps it as a node of its own and does not merge it with a previous sticky node, even if it is sticky.", "quantifier": "every grammar with a $ annotation, every document, every level", "why_tests_cant": "the existing test of tokens compares texts only, which merging does not change; whether the node survives depends on all neighbours it can have", "anchors": ["node.go: MergeStickyNodes", "README.md: Token annotation", "xbnf_test.go: TestTokenized"]}
{"id": "C72", "title": "Where there is white space, it does not matter how much", "statement": "If no literal and no range of a grammar contains white space, then two texts that differ only in how much and which white space there is, at places where both have some, are parsed alike. EvalRule finds a match in both or in neither; the trees are the same but for positions and the amount of white space inside of blocks; the text used and the text left over differ again only in the amount of white space. EvalRaw gives the same trees or the same kind of error, and Eval the same trees at every level.", "quantifier": "every grammar whose literals and ranges contain no white space, every rule of it, every pair of texts that differ only in the amount of white space, every order of visiting maps and every level", "why_tests_cant": "a test reformats a few samples; that reformatting never changes the parse is a statement about pairs of runs for all grammars, texts and spacings, and the counting of skipped characters makes it depend on the exact number of spaces", "anchors": ["charstream.go: SkipSpaces", "rule_terminal_char.go: Eval", "rule_terminal_range.go: Eval", "rule_terminal_chars.go: Eval", "rule_terminal_string.go: Eval", "rule_choice.go: Eval", "grammar.go: EvalRaw, EvalRule"]}
{"id": "C73", "title": "Results do not depend on shared memory and are not changed by later calls", "statement": "Slices are windows of arrays that others see, and append writes into the array where there is room; streams are objects shared by everyone who holds them. In spite of this every call returns what one gets if all texts are values: EvalRule, EvalEmbed, EvalRaw, Eval, Text, MergeStickyNodes and the simplification of trees. A call changes no text that existed before (the text of the document, texts of earlier results, texts handed out by Text) and no stream but its own. No two nodes of the trees returned share an array, with each other or with anything that existed. So simplifying the trees of one document later on changes those trees as it should, and neither other trees nor texts taken from the trees before.", "quantifier": "every grammar, document, heap, growth of arrays chosen by append, order of visiting maps and level", "why_tests_cant": "whether an append overwrites something depends on the spare room the runtime chose and on who else holds the array; a test sees one runtime, one growth policy and the slices it looks at", "anchors": ["charstream.go: SkipSpaces, Match, newCharstreamPrepend", "rule_concatenate.go: Eval", "rule_repetition.go: Eval", "rule_choice.go: Eval", "rule_block.go: Eval", "rule_terminal_eof.go: Eval", "node.go: MergeStickyNodes, Text", "grammar.go: EvalEmbed, EvalRaw, Eval"]}
{"id": "C74", "title": "One grammar can be used by several goroutines at once", "statement": "While no rules are being defined, any number of goroutines may call EvalRule, EvalEmbed, EvalRaw, Eval (each on a stream of its own; the streams may read the same array) and AST.Text (also of trees that several of them hold) at the same time. Each gets exactly what it would get alone, however the accesses to memory are interleaved; no goroutine ever writes into an array that others can see, so there is no data race on texts; none has to wait for another; and all come to an end after a number of accesses that does not depend on the order. (For merging trees that two goroutines hold this is not so.)", "quantifier": "every grammar, number of goroutines, jobs that end when run alone, shared arrays, growth of arrays chosen by append, and every interleaving of single accesses", "why_tests_cant": "schedules cannot be enumerated by running the code, and whether an append hits a shared array depends on the runtime's spare room; the race detector sees only the schedules that happened", "anchors": ["grammar.go: EvalRule, EvalEmbed, EvalRaw, Eval", "charstream.go: NewCharstreamFromString, newCharstreamPrepend, SkipSpaces, Match", "rule_*.go: Eval", "node.go: Text, MergeStickyNodes", "ast.go: Text"]}
{"id": "C75", "title": "The work of an evaluation is proportional to the length of the text", "statement": "EvalRule on a text of n characters makes at most K * (n + 1) calls of IRule.Eval, where K depends on the grammar only. (The library remembers nothing between attempts, so this fails in general: with a = ('x' a 'y') | ('x' a 'z') | 'x', evaluating n times x makes at least 2^n calls. It holds for predictive grammars, those in which one character tells alternatives apart.)", "quantifier": "every grammar that passes the check of C58, every rule name and every text whose white space is that of ASCII; K is chosen before the text", "why_tests_cant": "a bound for all lengths cannot be read off running times; the exponential blow-up needs a particular combination of grammar and text, and on short texts it is invisible", "anchors": ["grammar.go: EvalRule", "rule_choice.go: Eval", "rule_concatenate.go: Eval", "rule_repetition.go: Eval", "rule_block.go: Eval", "rule.go: most greedy match"]}
{"id": "C76", "title": "Parsing a document takes time proportional to its length", "statement": "EvalRaw and Eval on a document of n characters make at most K * (n + 1) calls of IRule.Eval, whether the document is accepted or not, from whatever kind of stream and in whatever order Go visits the map of root rules; the number of calls does not depend on that order. EvalEmbed on a text of n characters makes at most K * (n + 1) * (n + 1) calls, and no better bound holds: looking for s = {'x'} 'y' in n times x takes n * n / 2. K depends on the grammar only.", "quantifier": "every grammar that passes the check of C58 (for documents: also its roots), every text whose white space is that of ASCII, every stream, every order of the roots; K is chosen first", "why_tests_cant": "a bound for all lengths and all orders of a map cannot be read off running times", "anchors": ["grammar.go: EvalRaw, Eval, EvalEmbed", "rule_*.go: Eval"]}
{"id": "C77", "title": "The tree is no larger than the text, up to a factor that depends on the grammar", "statement": "The tree EvalRule returns has at most K * max(1, u) nodes, u being the number of characters it stands for, and u is at most the number of characters of the text. The trees EvalRaw and Eval return for a document of n characters have at most K * n nodes together, at every level of simplification, and simplification never adds a node. The tree of EvalEmbed has at most 1 + K * n nodes. K depends on the grammar only, and every grammar has one: also those that repeat what is empty, those that are recursive, and those for which the time doubles with every character.", "quantifier": "every grammar, every text for which the evaluation loses no characters (EvalRule: Regular, EvalRaw and Eval: Orderly, EvalEmbed: Clean at every place), every order of the roots, every level; K is chosen first", "why_tests_cant": "a bound on the memory a result takes for all grammars and all texts cannot be read off examples; a recursive rule could nest without end at one place", "anchors": ["rule_repetition.go:50-96", "rule_concatenate.go", "rule_choice.go", "grammar.go EvalRaw, EvalEmbed", "ast.go simplification"]}
{"id": "C78", "title": "White space decides whether a text is read, never how", "statement": "If no literal and no range of a grammar contains white space and one character always decides how to go on, then two texts with the same characters apart from white space, both accepted, have the same trees apart from positions and stickiness: EvalRule on texts it uses entirely, EvalRaw on documents. So reformatting a document can make it unreadable, but cannot change what it says. In particular, the text of a tree, if it is accepted, is read as that tree again. The same holds for the simplified trees of Eval at every level.", "quantifier": "every grammar without blocks that passes the checks of C58 and C59 and writes no white space, every pair of texts with the same characters apart from white space (that of ASCII), every order of visiting maps", "why_tests_cant": "a test compares a few spellings of a few samples; that no spelling of any text is ever read as something else is a statement about pairs of runs of all grammars on all texts", "anchors": ["rule_terminal_*.go: Eval", "rule_concatenate.go: Eval", "rule_choice.go: Eval", "rule_repetition.go: Eval", "grammar.go: EvalRule, EvalRaw, Eval", "node.go: Text", "ast.go: mergeStickyNodes"]}
{"id": "C79", "title": "A stream of the caller's own type is parsed as the text it spells", "statement": "Eval of a rule, EvalRaw and Eval of a grammar accept any implementation of ICharstream. If an implementation answers Next, Peek, Match and SkipSpaces as a stream over some text does, the outcome is that of the library's own stream over the text: the same trees but for positions, the same characters read and left over, no tree over the one exactly if none over the other (EvalRaw and Eval: for the same reason), at every level of simplification; and the caller's stream is left with exactly the characters that remain of the text. Nothing is asked of Cursor, Position and PositionLookup but that they do not move: however wrong their answers, only positions in trees and texts of errors depend on them. If their answers are those of the library's own stream, the positions and errors are the same too. The evaluation ends over the caller's stream exactly if it ends on the text, and two implementations that spell the same text cannot be told apart.", "quantifier": "every implementation (state and seven methods, each of which may change the state), every grammar, rule, flag and level, every order of visiting maps", "why_tests_cant": "the interface is open: an implementation may split its text into pieces, load on Peek, or number its characters as it likes; no finite set of streams stands for all of them", "anchors": ["charstream.go:34-56 ICharstream", "charstream.go:417-526 CharstreamPrepend", "rule_*.go: Eval", "grammar.go:301-403 Eval, EvalRaw"]}
{"id": "C80", "title": "No stream makes the library panic", "statement": "Whatever the methods of a stream of the caller's own type answer - characters that Peek did not announce, Match reading more than it was asked to, SkipSpaces returning letters, cursors that go backwards - evaluating a rule or a text over it does not index outside a slice, and a result never claims more characters left over than read.", "quantifier": "every implementation of ICharstream whose methods return, without any condition on the answers; every grammar, rule, flag and level, every order of visiting maps", "why_tests_cant": "the arithmetic on lengths in rule_concatenate.go, rule_repetition.go, rule_choice.go, rule_block.go and mostGreedy has to be safe for answers nobody thought of", "anchors": ["rule_concatenate.go:52-62", "rule_repetition.go:65-75", "rule_choice.go:93-116", "rule_block.go:60-201", "rule.go:77-79 charsUsed", "rule.go:274-325 mostGreedy", "grammar.go:325-403 EvalRaw"]}
{"id": "C81", "title": "The entry points tell the same story", "statement": "In a grammar with one root rule: EvalRaw reports that nothing matches if Eval of the rule on the same stream finds no tree, and if EvalRaw returns trees, the first of them is the tree Eval of the rule found, positions included. EvalRaw returns exactly one tree exactly if EvalRule returns this tree and uses every character of the text. EvalEmbed begins with the tree of the rule evaluated at the beginning of the sample without skipping, if there is one, and with a text node otherwise. Eval at its first level makes of a document of one tree what MergeStickyNodes and RemoveRedundantNodes make of the tree of EvalRule.", "quantifier": "every grammar with one root rule (EvalEmbed: every grammar and rule), every text or stream, every order of visiting maps", "why_tests_cant": "the entry points are separate loops around the same rules, with different flags and different accounting for characters that are read and given back; that they agree is a statement about all pairs of runs", "anchors": ["grammar.go:248-287 EvalEmbed", "grammar.go:289-299 EvalRule", "grammar.go:301-322 Eval", "grammar.go:325-403 EvalRaw", "rule.go:66-75 EvalResult", "node.go:94-184 MergeStickyNodes"]}
{"id": "C82", "title": "Documents one after the other", "statement": "If EvalRaw accepts two documents, it accepts the one followed by the other, and the trees of the whole are those of the first followed by those of the second, positions aside; likewise for any number of documents.", "quantifier": "every grammar without blocks and EOF, whose literals and ranges contain no white space and in which one character decides; all documents; every order of visiting maps", "why_tests_cant": "it is about all pairs of accepted documents of all grammars, and about every match of every rule: none may take more when the text goes on", "anchors": ["grammar.go:325-403 EvalRaw", "rule.go:66-75 EvalResult", "rule.go:33-47 SUGGEST_SKIP, SUGGEST_NOT_SKIP"]}
{"id": "C83", "title": "Simplifying changes the nodes there are, as if trees were values, and no others", "statement": "Nodes are shared objects: RemoveVirtualNodes, RemoveNonDataNodes, MergeStickyNodes and RemoveRedundantNodes of Node and AST, and what Eval does with them after EvalRaw, write into the nodes they reach. Take an AST in which no node is reachable in two ways. Whatever else is in memory, and at every level, the call ends; the AST afterwards is the one that the definitions behind C26 to C30 make of the tree taken as a value; every node of it is a node it had before, in the order it had; it again has no node in two places; a node that is not one of the AST's is not changed, so other ASTs and nodes that the caller holds stay as they are; Text of every node is the text of its tree. For an AST with a node in two places this is false (three times the same sticky leaf: the merged text has one letter too many), and with a node below itself Text has no end.", "quantifier": "all memories, all ASTs without shared nodes, all levels, all other nodes in memory", "why_tests_cant": "A test looks at the trees it built; that no other object is written to, for every memory and every tree, and that the order in which the methods write never lets one read what another wrote too early, is a statement about all heaps.", "anchors": ["node.go:77-90", "node.go:94-128", "node.go:132-184", "node.go:186-199", "node.go:204-250", "node.go:315-339", "ast.go:42-91", "grammar.go:301-322"]}
{"id": "C84", "title": "Every evaluation makes new nodes, each in one place, and changes none that were there before", "statement": "Nodes are shared objects and the evaluators hand them on: a choice, a group, a repetition, a block take nodes that other rules made as children, a reference changes the marks of a node it got, several root rules are tried and one result is kept. Take any grammar, any text, any order in which maps are visited, and any memory in which a program holds whatever nodes it holds. EvalRule, EvalEmbed, EvalRaw and Eval (at every level) end as they do when trees are taken as values: the same result or error, the same stream afterwards, a panic or an endless run in the same cases. All nodes of the trees that come out were made during the call; no node is in two places, so C83 applies to them; every node that existed before the call is as it was. Hence after any number of evaluations all ASTs are there as they came out and no two have a node in common, and simplifying one of them leaves the others as they are.", "quantifier": "all grammars, all texts, all levels, all orders in which maps are visited, all contents of memory before the call", "why_tests_cant": "A node shared between two alternatives, two rounds or two calls shows only when one of its holders changes it; no sample of grammars and texts rules sharing out, a separation argument over all executions does.", "anchors": ["rule_group.go:20-38", "rule_option.go:22-40", "rule_reference.go:17-50", "rule_concatenate.go:27-98", "rule_repetition.go:35-115", "rule_choice.go:36-122", "rule_block.go:60-201", "rule.go:274-325", "grammar.go:248-287", "grammar.go:289-299", "grammar.go:301-322", "grammar.go:325-403"]}
{"id": "C85", "title": "The order of the alternatives of a group does not matter", "statement": "Within a group of a choice (between two '>') all alternatives are tried and the longest match wins, and a block tries all its excluded texts; so the order in which an author writes them should not matter. Take two grammars with the same rules, except that alternatives of groups and excluded texts of blocks, at any depth and in any number of rules, are written in another order. Then EvalRule gives on every sample the same tree (or no tree with both), with the same characters used and the same only looked at; EvalEmbed finds the same matches in every text; and EvalRaw gives for every document the same trees or the same kind of error.", "quantifier": "all pairs of grammars that differ by such reorderings, all rule names, all samples and documents, all orders in which maps are visited", "why_tests_cant": "A reordering acts through every reference and every nesting, on every text; the failing cases need a tie among shorter alternatives together with a longer one, which samples meet only by accident.", "anchors": ["rule_choice.go:36-122", "rule.go:274-325", "rule_block.go:60-201", "grammar.go:289-299", "grammar.go:325-403"]}
{"id": "C86", "title": "An alternative that does not match does not matter", "statement": "An author adds alternatives to the choices of a grammar, and rules for them, for texts that are to come. On a text where none of the new alternatives matches, the grammar should do what it did: a choice finds a match exactly where it found one, with the same tree and the same number of characters used; EvalRule gives the same tree, EvalEmbed finds the same matches and EvalRaw gives the same trees, or the same kind of error. Alternatives of lower priority (after a further '>') should not matter at all where a group before them decides. Neither should excluded texts of a block or root rules that match nowhere in the text.", "quantifier": "all grammars, all alternatives added to groups or as groups of their own, in any rules and at any depth, all texts, all orders in which maps are visited", "why_tests_cant": "The new alternatives are tried at every place where the choice is evaluated, what they read and report flows into the result of the choice, and from there into rules far away; no list of samples covers the combinations.", "anchors": ["rule_choice.go:36-122", "rule_concatenate.go:27-95", "rule_block.go:60-202", "grammar.go:325-403"]}
{"id": "C87", "title": "Bounds of a repetition that allow what is there do not matter", "statement": "The lower bound of {x}<min,max> only decides whether there is a match: where a repetition matches, every other lower bound that the matches found meet gives the same result, and one they do not meet gives no match. The upper bound only decides where to stop: with an upper bound the matches are the first max of those found without one or with a higher one, and an upper bound that allows all that is there changes nothing, for the repetition and for the rules around it. {x}<0,1> reads what [x] reads.", "quantifier": "every grammar, inner rule, all bounds, every input stream and flag", "why_tests_cant": "Bounds, inner rules and texts are unbounded, and what the last, failed round of the loop reads and reports is part of the result.", "anchors": ["rule_repetition.go:35-115", "rule_option.go:22-40", "rule_concatenate.go:80-90"]}
