{"id": "C01", "title": "An accepted proof step is a genuine substitution instance", "statement": "Whenever VERIFY PROOF assigns a formula to a proof step that cites a $a/$p assertion, that formula is the assertion's math string under one simultaneous substitution of token strings for its variables, and the same substitution turns every mandatory hypothesis of the assertion into the formula on the corresponding RPN-stack position.", "quantifier": "all databases, all assertions, all stacks of hypothesis formulas (any lengths)", "why_tests_cant": "the matcher is a backtracking search over splits of arbitrary token strings; tests sample a handful of shapes", "anchors": ["src/mmveri.c:assignVar", "src/mmveri.c:verifyProof"]}
{"id": "C02", "title": "Unification of hypotheses is complete", "statement": "The verifier reports 'cannot be unified' for a step exactly when no substitution of token strings for variables turns the assertion's mandatory hypotheses into the formulas on the stack.", "quantifier": "all scheme and instance token strings", "why_tests_cant": "absence of a solution is a universally quantified claim; backtracking bugs only show for rare splits", "anchors": ["src/mmveri.c:assignVar"]}
{"id": "C03", "title": "Ambiguity is reported exactly when it exists", "statement": "The verifier reports 'not unique' for a step exactly when two different substitutions match; it never does so when every mandatory variable has a $f hypothesis among the mandatory hypotheses.", "quantifier": "all scheme and instance token strings", "why_tests_cant": "needs a claim about all pairs of substitutions", "anchors": ["src/mmveri.c:assignVar (ambiguityCheck)"]}
{"id": "C04", "title": "Step unification always terminates", "statement": "For every assertion and every stack of hypothesis formulas the matching loop of the verifier, including its second run for the uniqueness check, stops after finitely many iterations.", "quantifier": "all inputs; unbounded string lengths and variable counts", "why_tests_cant": "no test can observe non-termination on all inputs", "anchors": ["src/mmveri.c:assignVar"]}
{"id": "C05", "title": "Step unification never reads outside its arrays and never trips its own bug checks", "statement": "When the two big hypothesis strings carry the same number of separator tokens, none of the array reads of the matcher is out of range and internal errors 2104, 2105, 2106, 2107 and 2110 are unreachable.", "quantifier": "all inputs satisfying the stated precondition, which verifyProof always establishes", "why_tests_cant": "an out-of-range read need not crash; unreachability is universal", "anchors": ["src/mmveri.c:assignVar"]}
{"id": "C06", "title": "$d checking is exact", "statement": "A disjoint-variable violation is reported at a step exactly when, for some mandatory $d pair of the cited assertion, the two substituted strings contain variables a and b (one in each) that are equal or are not covered by a mandatory or optional $d pair of the statement being proved.", "quantifier": "all $d lists, all substitutions", "why_tests_cant": "the code uses a 'first occurrence' speed-up whose correctness depends on every list order", "anchors": ["src/mmveri.c:assignVar ($d violation check)"]}
{"id": "C07", "title": "Verified proofs are derivations (soundness)", "statement": "If parsing and verifying the proof of a $p statement produces no error message and no '?' step, then the statement is derivable, in the sense of the Metamath specification, from its own mandatory and optional hypotheses and the assertions that precede it in the database, respecting all $d restrictions.", "quantifier": "all databases produced by the parser, all proofs, normal and compressed", "why_tests_cant": "soundness of a proof checker is the archetypal universal property", "anchors": ["src/mmveri.c:verifyProof", "src/mmpars.c:parseProof", "src/mmpars.c:parseCompressedProof"]}
{"id": "C08", "title": "Correct proofs are accepted (completeness)", "statement": "A proof that is a correct RPN derivation of the statement according to the Metamath specification is verified without any error message.", "quantifier": "all databases whose variables all have $f statements, all correct proofs", "why_tests_cant": "a spurious rejection may need a particular substitution split", "anchors": ["src/mmveri.c:verifyProof"]}
{"id": "C09", "title": "The 'All proofs in the database were verified' message is truthful", "statement": "VERIFY PROOF * prints 'All proofs in the database were verified' only if every $p proof in the database was found correct.", "quantifier": "all databases", "why_tests_cant": "the message depends on the conjunction of all error paths", "anchors": ["src/mmcmds.c:verifyProofs", "src/mmveri.c:verifyProof"]}
{"id": "C10", "title": "Incomplete proofs are never reported as verified", "statement": "A proof containing an unknown step '?' makes the parser return a code of at least 1, is listed in the 'not proved' warning and suppresses the success message.", "quantifier": "all proofs, normal and compressed", "why_tests_cant": "must hold at every position of '?' and in combination with every other error", "anchors": ["src/mmpars.c:parseProof", "src/mmpars.c:parseCompressedProof", "src/mmcmds.c:verifyProofs"]}
{"id": "C11", "title": "No circular reasoning", "statement": "A proof accepted without error cites only assertions that strictly precede the statement being proved, and only hypotheses active for it; hence the citation graph of a fully verified database is acyclic.", "quantifier": "all databases and proofs", "why_tests_cant": "acyclicity is a property of the whole history of accepted statements", "anchors": ["src/mmpars.c:parseProof", "src/mmpars.c:parseCompressedProof"]}
{"id": "C12", "title": "Mandatory hypotheses are exactly those of the specification", "statement": "For every $a/$p statement accepted by READ, the mandatory hypothesis list is exactly the active $e statements plus the active $f statements whose variable occurs in the assertion or in an active $e, in order of appearance.", "quantifier": "all statement sequences with arbitrary nesting of ${ $}", "why_tests_cant": "depends on arbitrary nesting histories", "anchors": ["src/mmpars.c:parseStatements"]}
{"id": "C13", "title": "Mandatory and optional $d pairs are exactly those of the specification", "statement": "For every $a/$p statement, the mandatory $d pairs are exactly the pairs of distinct mandatory variables occurring together in an active $d statement, and the optional ones (for $p) the other active pairs; each pair is stored once with the smaller token first.", "quantifier": "all statement sequences", "why_tests_cant": "depends on arbitrary histories of $d statements and scopes", "anchors": ["src/mmpars.c:parseStatements"]}
{"id": "C14", "title": "Scoping: a closed block leaves no trace", "statement": "After a balanced ${ ... $} block, the sets of active variables, $e, $f and $d hypotheses are exactly what they were before the block.", "quantifier": "all balanced blocks at any depth", "why_tests_cant": "depends on arbitrary nesting", "anchors": ["src/mmpars.c:parseStatements (case lb_, rb_)"]}
{"id": "C15", "title": "$f discipline", "statement": "If READ reports no error for an $a/$p statement then every variable of the statement and of its mandatory $e hypotheses has exactly one mandatory $f hypothesis, and that $f comes before the $e that uses the variable.", "quantifier": "all statement sequences", "why_tests_cant": "universal over hypotheses and orders", "anchors": ["src/mmpars.c:parseStatements"]}
{"id": "C16", "title": "Labels are unique", "statement": "READ reports 'declared more than once' exactly when two labelled statements share a label; so, without error, looking up a label yields the one statement that declares it.", "quantifier": "all databases", "why_tests_cant": "quantifies over all pairs of labels and the sort order used to detect duplicates", "anchors": ["src/mmpars.c:parseLabels", "src/mmpars.c:lookupLabel"]}
{"id": "C17", "title": "Compressed label numbers round-trip", "statement": "Encoding any label index as letters A-T preceded by digits U-Y and decoding it yields the index again, the encoding is injective and uniquely delimited, and its length is the number of characters the writer reserves for it.", "quantifier": "all natural numbers", "why_tests_cant": "unbounded integers", "anchors": ["src/mmdata.c:compressProof", "src/mmpars.c:parseCompressedProof"]}
{"id": "C18", "title": "SAVE PROOF / COMPRESSED round-trips", "statement": "Parsing the compressed text written for a well-formed packed proof of a statement yields exactly the same sequence of proof steps with no error, unless the 'obsolete compression' heuristic fires.", "quantifier": "all well-formed packed proofs, of any length, with any number of labels and local labels", "why_tests_cant": "depends on numbering of arbitrarily many labels", "anchors": ["src/mmdata.c:compressProof", "src/mmpars.c:parseCompressedProof"]}
{"id": "C19", "title": "The obsolete-compression heuristic never corrupts freshly compressed proofs", "statement": "A compressed proof written by the program never triggers the old-algorithm decoder.", "quantifier": "all proofs", "why_tests_cant": "only proofs with more than 140 labels are concerned; the claim is about all of them", "anchors": ["src/mmpars.c:parseCompressedProof (bggyAlgo)", "src/mmdata.c:compressProof"]}
{"id": "C20", "title": "Parsing a compressed proof is memory safe", "statement": "For every proof text, parsing a compressed proof never indexes outside its work arrays and never uses an uninitialised label map entry.", "quantifier": "all byte strings as proof text", "why_tests_cant": "memory errors are silent; the quantifier is over all malformed inputs", "anchors": ["src/mmpars.c:parseCompressedProof"]}
{"id": "C21", "title": "Packing and unpacking proofs are inverse", "statement": "Replacing repeated subproofs by local-label references (SAVE PROOF / PACKED) and expanding them again yields the original normal proof; the packed proof is never longer.", "quantifier": "all well-formed normal proofs", "why_tests_cant": "arbitrary tree shapes and repetitions", "anchors": ["src/mmdata.c:nmbrSquishProof", "src/mmdata.c:nmbrUnsquishProof"]}
{"id": "C22", "title": "Parsing a normal proof is memory safe", "statement": "For every sequence of proof tokens, the step counter used while scanning local-label declarations never becomes negative and never exceeds its work arrays.", "quantifier": "all token sequences", "why_tests_cant": "malformed sequences are unbounded", "anchors": ["src/mmpars.c:parseProof"]}
{"id": "C23", "title": "Tokenisation ignores white space and comments", "statement": "The tokens read from a section are exactly its maximal runs of printable characters outside comments; inserting or removing white space and comments between tokens does not change the token sequence.", "quantifier": "all source texts", "why_tests_cant": "unbounded texts", "anchors": ["src/mmpars.c:whiteSpaceLen", "src/mmpars.c:tokenLen", "src/mmpars.c:proofTokenLen"]}
{"id": "C24", "title": "Statement sections partition the source", "statement": "When READ's keyword scan succeeds, the label, math and proof sections of the statements, joined with their keywords, reproduce the source buffer byte for byte.", "quantifier": "all source texts accepted without keyword errors", "why_tests_cant": "unbounded texts", "anchors": ["src/mmpars.c:parseKeywords", "src/mmpars.c:outputStatement"]}
{"id": "C25", "title": "Substring functions behave like sequence slicing", "statement": "left, right, mid and seg return the expected contiguous part of the string for every position argument including out-of-range and negative ones; concatenating left(s,n) and right(s,n+1) gives s back.", "quantifier": "all strings and positions", "why_tests_cant": "boundary arguments are unbounded", "anchors": ["src/mmvstr.c:left", "src/mmvstr.c:right", "src/mmvstr.c:mid", "src/mmvstr.c:seg"]}
{"id": "C26", "title": "instr/rinstr find the first/last occurrence", "statement": "instr(start,s,t) returns the least 1-based position at or after start where t occurs in s, 0 if none; rinstr returns the greatest such position.", "quantifier": "all strings", "why_tests_cant": "minimality is universal", "anchors": ["src/mmvstr.c:instr", "src/mmvstr.c:rinstr"]}
{"id": "C27", "title": "Comma lists behave like lists", "statement": "entry, lookup, numEntries and entryPosition agree with splitting the string at commas: entry(lookup(e,l),l)=e, lookup returns the first matching position, numEntries is the number of elements.", "quantifier": "all strings", "why_tests_cant": "unbounded lists and element contents", "anchors": ["src/mmvstr.c:entry", "src/mmvstr.c:lookup", "src/mmvstr.c:numEntries", "src/mmvstr.c:entryPosition"]}
{"id": "C28", "title": "Wildcard matching has the documented meaning", "statement": "A label matches a pattern exactly when the pattern's * can be expanded to arbitrary strings and ? to single characters so as to give the label.", "quantifier": "all strings and patterns", "why_tests_cant": "existential over expansions, universal over inputs", "anchors": ["src/mmcmds.c / mmdata.c:matches", "matchesList"]}
{"id": "C29", "title": "Fatal error text never overflows its buffer", "statement": "Whatever format string and arguments are pushed, in any sequence of calls, the fatal error buffer never holds more than its capacity, always stays NUL-terminated, and holds a prefix of the formatted text, marked with an ellipsis when truncated.", "quantifier": "all sequences of pushes and formats", "why_tests_cant": "arbitrary histories of pushes", "anchors": ["src/mmfatl.c:fatalErrorPush", "src/mmfatl.c:parse"]}
{"id": "C30", "title": "Label-list packing is optimal and respects the size limit", "statement": "The 0/1 knapsack routine returns a selection whose total size is within the limit and whose total worth is maximal among all selections, provided all sizes are positive (as they are for labels); items of worth at most zero are never selected.", "quantifier": "all item lists, sizes, worths and limits", "why_tests_cant": "optimality quantifies over all subsets", "anchors": ["src/mmdata.c:knapsack01"]}
{"id": "C31", "title": "Re-ordering labels on compression loses nothing", "statement": "The label list written into a compressed proof is a permutation of the explicitly needed labels: each exactly once, none extra.", "quantifier": "all proofs", "why_tests_cant": "depends on arbitrary label counts and widths", "anchors": ["src/mmdata.c:compressProof"]}
{"id": "C32", "title": "Date comparison is chronological", "statement": "For valid dd-mmm-yyyy dates the comparison result agrees with chronological order (within the century window of the format), and building then parsing a date gives it back.", "quantifier": "all valid dates", "why_tests_cant": "order laws are universal", "anchors": ["src/mmdata.c:compareDates", "src/mmdata.c:parseDate", "src/mmdata.c:buildDate"]}
{"id": "C33", "title": "Subproof extraction follows proof-tree structure", "statement": "The subproof ending at a step is exactly the contiguous block of steps of that node's subtree in the proof tree.", "quantifier": "all well-formed proofs and steps", "why_tests_cant": "arbitrary trees", "anchors": ["src/mmdata.c:nmbrGetSubproofLen", "src/mmpfas.c:subproofLen"]}
{"id": "C34", "title": "Proof-step classification is consistent with the tree", "statement": "Indentation equals depth in the proof tree; a step is essential iff no $f hypothesis lies on the path from it to the root; the target hypothesis of a step is the hypothesis slot it fills in its parent.", "quantifier": "all well-formed proofs", "why_tests_cant": "arbitrary trees", "anchors": ["src/mmdata.c:nmbrGetIndentation", "src/mmdata.c:nmbrGetEssential", "src/mmdata.c:nmbrGetTargetHyp"]}
{"id": "C35", "title": "Set operations on token lists are set operations", "statement": "Union, intersection and difference of token lists have exactly the expected members, keep the documented order, and union keeps its first argument as a prefix.", "quantifier": "all lists", "why_tests_cant": "universal over lists", "anchors": ["src/mmdata.c:nmbrUnion", "src/mmdata.c:nmbrIntersection", "src/mmdata.c:nmbrSetMinus"]}
{"id": "C36", "title": "String editing codes do what they say", "statement": "edit with the discard/trim/case codes returns a string with the documented property (no blanks, no leading/trailing blanks, single spaces, case folded) and is idempotent for those codes.", "quantifier": "all strings", "why_tests_cant": "universal over strings", "anchors": ["src/mmvstr.c:edit"]}
{"id": "C37", "title": "Every math symbol is resolved to its one active declaration", "statement": "In a source READ accepts, every symbol of a $d/$e/$f/$a/$p math string is stored as the token of a $c/$v declaration of exactly that name that is active at that statement, and at no statement are two declarations of the same name active.", "quantifier": "all accepted sources, all statements, all symbols", "why_tests_cant": "depends on nesting, redeclaration history and name clashes of unbounded sources", "anchors": ["src/mmpars.c: parseStatements (1080-1231)", "src/mmpars.c: parseMathDecl"]}
{"id": "C38", "title": "READ raises no internal error before it has reported an error in the source", "statement": "Reading any sequence of statements terminates with stored statements, or stops with a '?BUG CHECK' internal error only after an ordinary error message about the source has been printed; no symbol table array is read out of range.", "quantifier": "all finite sequences of statements", "why_tests_cant": "unbounded sources; the crash needs an interplay of scope exit and stale positions after an error", "anchors": ["src/mmpars.c: parseStatements (bug 1708, 33, symbolLenExists)"]}
{"id": "C39", "title": "Every token of a normal proof is resolved to the one thing it names", "statement": "When parsing a normal-format proof reports no error, the i-th stored step is the active hypothesis, the earlier assertion or the earlier local step whose label is exactly the i-th token, and no other statement or local step has that label.", "quantifier": "all databases with unique labels, all proof texts", "why_tests_cant": "unbounded proofs; resolution depends on sorted tables of all labels and of local labels", "anchors": ["src/mmpars.c: parseProof (2040-2535)"]}
{"id": "C40", "title": "Parsing then verifying a proof always ends", "statement": "For every proof text (without misplaced ':' tokens) parsing ends normally, and if its code permits verification, verification ends normally or with internal error 2110, never by reading outside an array and never by another internal error.", "quantifier": "all databases built by READ, all normal proof texts", "why_tests_cant": "unbounded proof texts, including all erroneous ones", "anchors": ["src/mmpars.c: parseProof", "src/mmveri.c: verifyProof"]}
{"id": "C41", "title": "READ accepts exactly the valid sources", "statement": "READ prints no error message about the statements of a source if and only if the source obeys the rules of the Metamath language about declarations, scopes and types of variables; names redeclared in closed scopes, or used in any order of blocks, make no difference.", "quantifier": "all finite sequences of statements that are valid according to an independent definition of validity", "why_tests_cant": "unbounded sources; acceptance depends on the whole history of declarations and scope exits", "anchors": ["src/mmpars.c: parseMathDecl (555-693), parseStatements (696-1880)"]}
{"id": "C42", "title": "READ stores what the source text says", "statement": "When READ prints no error, the characters of the source are exactly the stored statements in order with their keywords; each statement's label is the only word of its label section, its symbols are the words of its math section, its proof text is the proof section; comments and white space have no other effect; labels are unique, legal and different from all math symbols.", "quantifier": "all source texts", "why_tests_cant": "unbounded texts with arbitrary comments and spacing", "anchors": ["src/mmpars.c: readRawSource, parseKeywords, parseLabels, parseMathDecl, parseStatements, whiteSpaceLen, tokenLen"]}
{"id": "C43", "title": "Compressing a proof ends", "statement": "Writing a packed proof in compressed format always terminates without an internal error.", "quantifier": "all packed proofs, label lengths and screen widths", "why_tests_cant": "the loop over lines depends on arbitrary label lengths and widths; non-termination is not observable in bounded time", "anchors": ["src/mmdata.c:compressProof"]}
{"id": "C44", "title": "Frequently used labels get short numbers", "statement": "In a compressed proof written by the program, a label that is referenced more often than another label of the list is not assigned a longer letter code.", "quantifier": "all packed proofs, all pairs of listed labels", "why_tests_cant": "arbitrary label counts and reference counts; the two orderings (by use, by line filling) interact", "anchors": ["src/mmdata.c:compressProof"]}
{"id": "C45", "title": "Writing a proof as text is memory safe", "statement": "Converting a proof to the text of the normal or packed format never writes outside the buffer that was allocated for it.", "quantifier": "all proofs, including ones with unknown steps, and all label names", "why_tests_cant": "a heap overflow by a few bytes is silent; depends on arbitrary label names", "anchors": ["src/mmdata.c:nmbrCvtRToVString"]}
{"id": "C46", "title": "SAVE PROOF / NORMAL and / PACKED round-trip", "statement": "Parsing the text written for a well-formed normal or packed proof yields exactly the same sequence of proof steps, and the generated local label names never collide with statement labels.", "quantifier": "all well-formed packed proofs, all label names including numeric ones", "why_tests_cant": "arbitrary proofs and label names", "anchors": ["src/mmdata.c:nmbrCvtRToVString", "src/mmpars.c:parseProof"]}
{"id": "C47", "title": "Saving a proof does not change its verdict", "statement": "Packing a normal proof (SAVE PROOF /PACKED, /COMPRESSED) does not change the verdict of VERIFY PROOF: the packed proof is accepted exactly if the normal proof is; and the compressed text written for an accepted proof is read back and verified without any message.", "quantifier": "all accepted databases, all theorems, all normal proofs of them", "why_tests_cant": "arbitrary proofs and arbitrary sharing of subproofs", "anchors": ["src/mmdata.c:nmbrSquishProof", "src/mmveri.c:verifyProof", "src/mmcmds.c:compressProof"]}
{"id": "C48", "title": "Every unification offered is a unifier", "statement": "In the Proof Assistant, every answer of the unification of two schemes (the first one and every further one asked for) is a substitution of the unknown variables that makes the two schemes equal; applying it to any scheme replaces exactly the unknown variables by their values; no value contains a variable that itself has a value, a scheme separator, or fewer tokens than the minimum; only variables of the two schemes get values.", "quantifier": "all pairs of schemes with equally many separators, all series of calls, all trial counts, all databases (axioms, token types and names)", "why_tests_cant": "the search space over splits and variable choices is unbounded and the values are kept as positions into strings that later substitutions shift", "anchors": ["src/mmunif.c:unify", "src/mmunif.c:makeSubstUnif"]}
{"id": "C49", "title": "Unification terminates without internal errors", "statement": "Each call of the unification, first or further, ends with an answer, with 'no more' or with a timeout, without any of its internal error messages and without reading outside its arrays; only finitely many answers are ever given; with the trial counter off no timeout is reported.", "quantifier": "all pairs of proper schemes, all series of calls, all trial counts", "why_tests_cant": "termination of a backtracking search over substitutions that make the schemes longer", "anchors": ["src/mmunif.c:unify"]}
{"id": "C50", "title": "Matching finds every match that passes the filters", "statement": "If one of the two schemes contains no unknown variable, then every substitution that makes them equal, whose values have the minimum length and pass the documented plausibility filters, is returned by some call in the series of calls without trial limit; the filters let exactly the plausible values pass.", "quantifier": "all schemes and known schemes, all matching substitutions", "why_tests_cant": "completeness of a search over all splits", "anchors": ["src/mmunif.c:unify"]}
{"id": "C51", "title": "SHOW TRACE_BACK is exact", "statement": "For a theorem s, SHOW TRACE_BACK s ends without an internal error and lists, in database order and each once, exactly the assertions other than s used directly or indirectly by the proof of s (counting only essential steps under / ESSENTIAL), restricted to axioms under / AXIOMS, to the labels matching the list under / MATCH, and to the assertions that are, or use, one matching the list under / TO; its warning lists exactly the traced theorems whose proofs are incomplete or have errors. The test used by MINIMIZE_WITH / FORBID answers exactly whether a matching assertion is used.", "quantifier": "all databases READ accepts, all theorems, all qualifier combinations and pattern lists", "why_tests_cant": "it is a transitive closure over proofs of arbitrary databases, computed by a worklist with an in-place filter", "anchors": ["src/mmcmds.c:traceProof", "src/mmcmds.c:traceProofWork", "src/mmcmds.c:traceUsage"]}
{"id": "C52", "title": "SHOW USAGE is exact", "statement": "SHOW USAGE s / RECURSIVE lists exactly the theorems that use s directly or indirectly, and SHOW USAGE s / DIRECT exactly those with a proof step that refers to s; SHOW USAGE / RECURSIVE and SHOW TRACE_BACK are converse to each other.", "quantifier": "all databases READ accepts, all statements", "why_tests_cant": "the direct form skips proofs by a text search whose answer must agree with the parser for every text, including comments", "anchors": ["src/mmcmds.c:traceUsage"]}
{"id": "C53", "title": "UNDO, REDO and EXIT keep the user's work", "statement": "In the Proof Assistant, UNDO and REDO move through the history of the proof exactly as an ideal history with a cursor that keeps the last n older proofs (n set by SET UNDO), with the messages that history implies; n changes followed by n UNDOs (n within the limit) restore the proof, and n REDOs bring the last change back; no internal error occurs; and EXIT without a warning means the proof is the one at entry or at the last SAVE NEW_PROOF.", "quantifier": "all sequences of sessions and of proof changing commands, UNDO, REDO, SAVE NEW_PROOF and SET UNDO, all undo limits", "why_tests_cant": "it ranges over all command histories, including overflow of the stack and changes of its size", "anchors": ["src/mmpfas.c:processUndoStack", "src/mmpfas.c:copyProofStruct", "src/metamath.c:command"]}
{"id": "C54", "title": "The Proof Assistant's congratulations are sound", "statement": "When the Proof Assistant prints that the proof is complete, the proof in progress has no unknown step, cites only hypotheses active for the statement and earlier assertions, and every step is an instance of what it cites applied to the steps before it, ending with the statement to be proved (but for disjoint-variable conditions, which the message does not check); so the statement is derivable, and VERIFY PROOF accepts the proof if no cited assertion has such conditions.", "quantifier": "all databases READ accepts, all theorems, all stored proofs and all sequences of ASSIGN, REPLACE, IMPROVE, DELETE, LET, UNIFY, INITIALIZE, EXPAND, UNDO and REDO, all answers of unification and choices of the user", "why_tests_cant": "it ranges over all sessions; the four parallel arrays must stay consistent under every order of edits", "anchors": ["src/mmpfas.c:autoUnify", "src/mmpfas.c:assignKnownSteps", "src/mmpfas.c:assignStatement", "src/mmpfas.c:deleteSubProof", "src/mmpfas.c:addSubProof", "src/mmpfas.c:initStep", "src/mmpfas.c:initProofStruct", "src/metamath.c:command"]}
{"id": "C55", "title": "No session of the Proof Assistant goes out of bounds or reaches an internal error", "statement": "Starting with any stored proof that has the form of a proof, no sequence of commands with legal arguments reads or writes outside the arrays of the proof in progress or reports an internal bug; afterwards there is one target, source and user formula per step, the steps form a proof (with unknown steps) that cites only what the statement may cite, and the last target is the statement.", "quantifier": "all databases READ accepts, all theorems, all sessions", "why_tests_cant": "it ranges over all sessions and all arguments", "anchors": ["src/mmpfas.c:subproofLen", "src/mmpfas.c:addSubProof", "src/mmpfas.c:deleteSubProof", "src/mmpfas.c:initStep", "src/mmpfas.c:assignKnownSubProofs", "src/metamath.c:command"]}
{"id": "C56", "title": "The Henty filter drops only repeated unifications, and 'unique' means unique", "statement": "With the filter on or off, every call of unifyH ends; its answers are answers of unify; an answer that is dropped equals one that was given up to the choice of variables, so none is lost; when uniqueUnif returns 1 its answer is the only one up to renaming, 0 means there is none, and 3 means there are two that differ.", "quantifier": "all pairs of schemes, all series of calls, all trial limits", "why_tests_cant": "normal forms must separate exactly the inequivalent answers for every pair of schemes", "anchors": ["src/mmunif.c:unifyH", "src/mmunif.c:hentyNormalize", "src/mmunif.c:hentyMatch", "src/mmunif.c:hentyAdd", "src/mmunif.c:uniqueUnif"]}
{"id": "C57", "title": "Every command of the Proof Assistant ends", "statement": "In every session, with the unification of mmunif.c, every command with legal arguments and the start of a session ends normally: the automatic unification after it comes to rest after at most as many rounds as there are dummy variables; the congratulations are then sound as in C54.", "quantifier": "all databases READ accepts, all theorems, all sessions, all commands", "why_tests_cant": "the loop of automatic unification repeats until nothing changes; that it comes to rest must hold for every proof in progress", "anchors": ["src/mmpfas.c:autoUnify", "src/mmpfas.c:assignKnownSteps", "src/mmunif.c:uniqueUnif", "src/mmunif.c:unifyH", "src/metamath.c:command"]}
{"id": "C58", "title": "EXPAND replaces uses of theorems by their proofs", "statement": "EXPAND ends without an internal error for every proof in progress and every list of label patterns. The new proof is the old one with every use of a matching theorem replaced by the proof the database has for it, the proofs of the hypotheses put in for the hypotheses; no matching theorem is used any more, even by the inserted proofs; the result is again a proof of the same statement in form, and if the old proof and the proofs used are correct and have no dummy variables, the new proof is correct. If nothing matches, nothing changes.", "quantifier": "all databases READ accepts, all stored proofs (normal, compressed, incomplete or faulty), all proofs in progress, all lists of label patterns", "why_tests_cant": "the replacement works on packed and unpacked proofs of any size and repeats until no use is left; termination and correctness must hold for every proof", "anchors": ["src/mmpfas.c:expandProof", "src/metamath.c:EXPAND", "src/mmpars.c:getProof", "src/mmdata.c:nmbrUnsquishProof", "src/mmdata.c:nmbrGetSubproofLen"]}
{"id": "C59", "title": "Overwriting a file loses nothing", "statement": "When a command writes a file that exists, the old file becomes version ~1 and the versions up to the first gap move up by one; only version ~9 of a full set is dropped; nothing else changes. At whatever point the program or the machine stops, every one of these contents is still under its old or its new name, provided the operating system does not refuse a rename. After any history of saves, version ~k is the text saved k saves before. The list commands never lose their result, whatever calls fail: it is in the temporary file or the output file at every time. Temporary names do not collide with existing files until a thousand have been used.", "quantifier": "all directories, all file names, all crash points, all patterns of failing system calls (rename excepted where stated), all histories of saves", "why_tests_cant": "crash points, failing calls and arbitrary sets of versions with gaps cannot be enumerated", "anchors": ["src/mminou.c:fSafeOpen", "src/mminou.c:fSafeRename", "src/mminou.c:fGetTmpName", "src/mmcmds.c:writeSource"]}
{"id": "C60", "title": "WRITE SOURCE writes back what was read, and what was saved", "statement": "After READ without errors WRITE SOURCE writes the source back byte for byte. After any number of SAVE PROOF commands it does not fail, and the text it writes is the old one with only the proofs of those statements replaced and, where SAVE PROOF adds a 'Contributed by' note, the note inserted at the end of the last comment before the label; READ accepts that text without errors and stores the same statements, in the same scopes, with the new proofs. (Provided the contributor name has no $ in it: SET CONTRIBUTOR does not check this.)", "quantifier": "all source texts READ accepts, all sequences of SAVE PROOF commands on any of the $p statements, all saved proof texts and notes without $", "why_tests_cant": "the buffer is computed from section lengths and raw pointers; that no byte is lost, doubled or written outside must hold for every source and history of saves", "anchors": ["src/mmpars.c:writeSourceToBuffer", "src/metamath.c:SAVE PROOF", "src/mmpars.c:parseKeywords", "src/mmpars.c:readRawSource"]}
{"id": "C61", "title": "Long lines are wrapped without loss", "statement": "printLongLine never stops with an internal error (screen width at least 5) and prints each line of its argument broken as documented: at spaces the words are the same, in the order given, with nothing but the indentation added; in every mode exactly the printable characters of the argument are printed; no printed line is longer than the screen unless one piece cannot be broken; quoted spaces are not broken at. A compressed proof `( labels ) letters $.` is broken at spaces or between letters only, and always ends with ` $.`.", "quantifier": "all texts, all screen widths from 5 on, all indentations of white space, all break modes used by the program", "why_tests_cant": "the loop restarts with a wider screen, cuts the indentation and drops one or two spaces at breaks depending on the text; that nothing is lost must hold for every text and width", "anchors": ["src/mminou.c:printLongLine", "src/mminou.c:print2", "src/metamath.c:SAVE PROOF"]}
{"id": "C62", "title": "A saved proof survives WRITE SOURCE and READ", "statement": "READ accepted a source without messages. After SAVE PROOF of a complete proof of a $p statement (normal or compressed format), whatever proofs were saved before and whatever proofs of other statements are saved afterwards, with or without a contributor note, WRITE SOURCE succeeds, READ of the written file reports no error, and parsing the proof of that statement there yields step by step the proof that was saved, without messages.", "quantifier": "all sources accepted by READ, all packed proofs, all screen widths from 5 on, all indentations, all sequences of SAVE PROOF commands", "why_tests_cant": "the written text depends on the labels, their lengths, the width and the numbering of the compressed format; a test covers a few layouts, and the layouts that are misread (every UU at a line end) are rare", "anchors": ["src/metamath.c:SAVE PROOF", "src/mmdata.c:compressProof", "src/mmdata.c:nmbrCvtRToVString", "src/mminou.c:printLongLine", "src/mmpars.c:writeSourceToBuffer", "src/mmpars.c:parseProof", "src/mmpars.c:parseCompressedProof"]}
{"id": "C63", "title": "File inclusion follows the language", "statement": "READ puts the files together as the language defines: each `$[ file $]` outside comments is replaced by the contents of the file the first time the file is met and by nothing later (or if it is the main file), comments are ignored, nothing else changes: the words outside comments of the text the program works on are exactly those of the definition. If the definition gives a result the program accepts the files, and if the program accepts files (no error message) the definition gives that result.", "quantifier": "all main files and all sets of included files, nested and repeated in any way", "why_tests_cant": "inclusions nest, repeat and share files in unboundedly many ways, next to comments, line ends and the program's own markup; tests cover a few trees", "anchors": ["src/mmpars.c:getNextInclusion", "src/mmpars.c:readInclude", "src/mmpars.c:readSourceAndIncludes", "src/mminou.c:readFileToString"]}
{"id": "C64", "title": "File inclusion ends", "statement": "Reading a main file with its included files comes to an end whatever the files contain, even if they include each other in a circle.", "quantifier": "all finite sets of files with arbitrary contents (including markup comments and malformed inclusions)", "why_tests_cant": "termination for all contents and all inclusion graphs cannot be observed", "anchors": ["src/mmpars.c:readInclude", "src/mmpars.c:getNextInclusion"]}
{"id": "C65", "title": "The expanded text can be read again", "statement": "The text that READ has put together from several files, with the program's comments that mark the inclusions, written to a single file (the main file or a new one) and read again, gives exactly the same text, whatever the other files contain then, and without an error.", "quantifier": "all main files and sets of included files that the language accepts; all contents of the other files when reading again", "why_tests_cant": "the second reading interprets the markup of the first one at every nesting depth; failures depend on the combination of file names and nesting", "anchors": ["src/mmpars.c:readInclude", "src/mmpars.c:getNextInclusion", "src/mmpars.c:readSourceAndIncludes"]}
{"id": "C66", "title": "Unlimited-precision step counts are added and subtracted correctly", "statement": "For any two nonnegative decimal numbers of any length (leading zeros and the empty string for 0 allowed) the program's big-number addition gives the digits of the sum; its subtraction gives the digits of the difference when the first number is not smaller. The result has no leading zeros.", "quantifier": "all pairs of digit strings, of any lengths", "why_tests_cant": "carries and complements interact with lengths and leading zeros at every size; numbers far beyond machine integers occur", "anchors": ["src/mmcmds.c:bigAdd", "src/mmcmds.c:bigSub"]}
{"id": "C67", "title": "SHOW TRACE_BACK / COUNT_STEPS reports the right numbers", "statement": "For a theorem with a complete proof the command ends without an internal error and reports: the number of steps of its proof, the number of different theorems used directly or indirectly and the total of their steps (also after merging those used only once), the number of steps of the proof fully expanded back to axioms and hypotheses, and a longest chain of uses together with its length.", "quantifier": "all databases accepted by READ, all theorems, with or without / ESSENTIAL", "why_tests_cant": "the counts are memoised over the whole dependency graph; wrong sharing, order of computation or underflow depends on the graph", "anchors": ["src/mmcmds.c:countSteps", "src/mmcmds.c:bigAdd", "src/mmcmds.c:bigSub", "src/metamath.c:command"]}
{"id": "C68", "title": "A proof in the /EXPLICIT format means what its targets say", "statement": "A proof whose steps are written target=label is accepted exactly if the same proof without targets is accepted and, at each step that applies an assertion, every hypothesis of the assertion is the target of one of the subproofs on the stack; it then stands for the proof in which each hypothesis gets the subproof with its name, whatever the order of the subproofs in the text and whether or not local labels refer across them. The rearrangement terminates, keeps the verdict of the verifier, and a theorem whose explicit proof is accepted is derivable.", "quantifier": "all databases accepted by READ, all $p statements, all proof texts in normal or explicit format, with or without local labels", "why_tests_cant": "subproofs and references are moved repeatedly; whether a reference still points to the right subproof depends on the whole proof", "anchors": ["src/mmpars.c:parseProof"]}
{"id": "C69", "title": "SAVE PROOF / EXPLICIT writes a proof that reads back as the same proof", "statement": "The text written for a complete proof (with or without references to earlier steps) in the explicit format names for each step the hypothesis of the assertion that uses it (the theorem itself for the last step), contains only printable characters other than $ and spaces, and, however it is broken into lines or interspersed with comments, is parsed to exactly the proof that was saved, without any message.", "quantifier": "all databases accepted by READ, all $p statements, all complete normal or packed proofs, all line breaks and comments", "why_tests_cant": "targets are computed by walking the proof tree and read back by searching for hypotheses among the targets; agreement is needed for every tree shape and label set", "anchors": ["src/mmdata.c:nmbrCvtRToVString", "src/mmdata.c:nmbrGetTargetHyp", "src/mmpars.c:parseProof"]}
{"id": "C70", "title": "WRITE SOURCE / FORMAT keeps the database", "statement": "After a READ without errors, WRITE SOURCE with / FORMAT does not fail, changes nothing but white space in the label and math sections of the statements (and adds the comment $( PLEASE PUT DESCRIPTION HERE. $) to assertions that have no comment), leaves proofs untouched, and READ accepts the file written, without errors and with the same statements, labels, symbols and proofs.", "quantifier": "all sources READ accepts (with the usual place of comments and labels), all screen widths from 5, all scopes, groups of $d, tabs, blank lines and comments", "why_tests_cant": "the label section is cut at positions found by searching backwards for the label, line breaks and comment marks; whether a comment or a label survives depends on the text around it", "anchors": ["src/mmpars.c:outputStatement", "src/mmcmds.c:writeSource", "src/mminou.c:printLongLine"]}
{"id": "C71", "title": "WRITE SOURCE / REWRAP keeps the database and the letters of comments", "statement": "After a READ without errors, WRITE SOURCE with / REWRAP leaves proofs untouched, keeps the words of the math sections and every printing character of the labels and comments in their order, except that a period may be added at the end of the last comment of an assertion after a lower case letter and the comment $( PLEASE PUT DESCRIPTION HERE. $) is added to assertions without one; and READ accepts the file written, without errors and with the same statements, labels, symbols and proofs. (A comment that ends with an empty line stops the command with bug 1730.)", "quantifier": "all sources READ accepts (with the usual place of comments and labels), all screen widths from 5, all comments: math in back quotes, labels after ~, sentences, markup, blank lines, any spaces", "why_tests_cant": "rewrapComment inserts spaces at positions it searches for and replaces spaces by a non-breaking character that must all be found and turned back after the line wrapping; a lost character, a comment mark glued to a word or a left-over control character depends on the exact text", "anchors": ["src/mmpars.c:rewrapComment", "src/mmpars.c:outputStatement", "src/mmcmds.c:writeSource", "src/mminou.c:printLongLine"]}
{"id": "C72", "title": "WRITE SOURCE / EXTRACT writes a self-contained database", "statement": "After a READ without errors, WRITE SOURCE with / EXTRACT writes the assertions whose labels match the pattern and every assertion their proofs depend on, directly or not, and no other assertion, in the old order and each unchanged, with the hypotheses, $d statements, blocks and declarations they need; the symbols of the other declarations are declared at the end. READ accepts the file written and each assertion in it has the same mandatory variables, hypotheses and distinct variable conditions as before (a theorem also the same optional $f hypotheses and $d conditions). (False for a $a below a $d with a variable that is not mandatory for it: that variable's declaration is lost and READ rejects the file.)", "quantifier": "all sources READ accepts, all label patterns, all nestings of blocks, all places of $c, $v, $f, $e and $d statements", "why_tests_cant": "a missing $f, $d or block, or a block that takes in a hypothesis of its neighbour, makes the extract unreadable or changes what a theorem states only for particular nestings and uses of variables", "anchors": ["src/mmcmds.c:writeExtractedSource", "src/mmcmds.c:traceProofWork", "src/mmpars.c:parseStatements"]}
{"id": "C73", "title": "The proofs of an extract verify", "statement": "If VERIFY PROOF accepts a theorem (no errors, no unknown steps) and WRITE SOURCE / EXTRACT writes that theorem, then after READ of the file written VERIFY PROOF accepts the theorem there, for normal and compressed proofs, although the proof text is copied unchanged and every statement and symbol has a new number. (False for a compressed proof that lists a label it does not use: the statement of that label is not extracted, and the proof is rejected in the extract.)", "quantifier": "all sources READ accepts, all label patterns, all extracted theorems, all proofs in normal format (with local labels) or compressed format, all placements of comments and white space in them", "why_tests_cant": "one statement, optional variable, $f hypothesis or distinct variable condition left out makes a proof of the extract fail; which ones a proof needs depends on the proof, and on every proof it uses", "anchors": ["src/mmcmds.c:writeExtractedSource", "src/mmpars.c:parseProof", "src/mmpars.c:parseCompressedProof", "src/mmveri.c:verifyProof"]}
{"id": "C74", "title": "The proofs IMPROVE finds are correct, and its search ends", "statement": "When IMPROVE (or the syntax breakdown of a formula) searches for a proof of a formula without dummy variables, the search ends, whatever the search, unification-timeout and depth settings, without a crash or an internal error; and if it returns steps, they are known steps that may be cited, they form one complete proof that may be inserted in the current proof, and they prove exactly that formula but for disjoint variable conditions; with / NO_DISTINCT (and a current proof that cites no assertion with $d requirements) they prove it without reservation. The quick filter that skips statements skips only statements of which the formula is not a substitution instance. (False when the current proof has a complete step that is not unified with its target: the search then copies that step's subproof, which does not prove the formula.)", "quantifier": "all databases READ accepts, all theorems, all sessions of the Proof Assistant, all formulas, all settings of the limits and qualifiers, all sets of discouraged statements and mathboxes", "why_tests_cant": "the search backtracks over unifications and hypothesis orders with static state that survives recursive calls (hypothesis proofs of failed attempts are kept); a stale entry or a wrong order of the pieces shows only for particular grammars and formulas", "anchors": ["src/mmpfas.c: proveFloating, quickMatchFilter, subproofLen", "src/mmunif.c: unifyH, makeSubstUnif"]}
{"id": "C75", "title": "MINIMIZE_WITH keeps a proof correct, never lengthens it and ends", "statement": "If the known steps of the current proof are unified with their targets, MINIMIZE_WITH an earlier assertion changes the proof only by replacing subproofs by complete proofs of the same formulas (correct but for disjoint variable conditions, which the command checks separately); if it reports no error, the known steps are again unified with their targets, no step became unknown, and a complete proof of the theorem is still a complete proof of the theorem. Without / MAY_GROW every replacement makes the proof shorter, so the proof is unchanged or shorter; the command ends without a crash or an internal error; and repeating it changes nothing. A complete proof that the search for a replacement returns for a formula proves that formula.", "quantifier": "all databases READ accepts, all theorems, all sessions of the Proof Assistant, all earlier assertions, all unification limits, all ways the pieces can be found in the current proof", "why_tests_cant": "the search backtracks over hypotheses sorted by kind and length, each with its own saved unification state and re-entry flag, substitutes the answers of all earlier hypotheses, and mixes old subproofs with new ones; wrong pairings appear only for particular combinations of hypotheses and steps", "anchors": ["src/mmpfas.c: replaceStatement, checkStmtMatch, minimizeProof, assignKnownSteps, deleteSubProof, addSubProof", "src/mmunif.c: unifyH, makeSubstUnif"]}
{"id": "C76", "title": "A command line is split into the words the manual describes", "statement": "The arguments of a command line are exactly its maximal runs of ordinary characters, its quoted strings without the quotes, and (outside TOOLS) each / and =; spaces, tabs and line ends only separate them; a line with ! in its first column is a comment without arguments. Splitting always ends, a missing closing quote is closed by the end of the line, every argument is reported with the column it starts in, and a text without quotes of its own kind, put in quotes, is one argument that is exactly this text.", "quantifier": "all command lines, all prompts, normal and TOOLS mode", "why_tests_cant": "a scanner with four modes and two kinds of quotes over arbitrary text; adjacent quotes, empty strings, special characters inside words and the end of the line in each mode must all come out right", "anchors": ["src/mmcmdl.c: parseCommandLine"]}
{"id": "C77", "title": "A keyword can be abbreviated to what is unambiguous", "statement": "Where one of some keywords is expected, a word (in any case) is accepted as a keyword exactly if it is that keyword or the beginning of that keyword and of no other choice; otherwise the message says that it is ambiguous and names exactly the keywords it abbreviates, or that it is none of the choices. A missing optional argument is no argument, a missing other argument is asked for and an empty answer is the default. Where a number is expected, every sequence of digits is accepted with its value.", "quantifier": "all lists of different keywords, all words, all states of the command", "why_tests_cant": "the keywords of about a hundred menus, prefixes of each other in some of them, against arbitrary words and cases; the answer depends on all choices at once", "anchors": ["src/mmcmdl.c: getFullArg"]}
{"id": "C78", "title": "A command in full is the same command", "statement": "A command that the program accepts - with abbreviated words, or with words that were missing and asked for - is, written in full, accepted again with the same words and without a question. A command is accepted only if all words of the line were used. A command is recognised exactly by its first words, whatever spaces its arguments have, and a switch is found exactly if it is there, at its first place.", "quantifier": "all command trees, all command lines, all answers of the user, all lists of choices of the program", "why_tests_cant": "the tree of commands has over two hundred calls in every combination of switches, each depending on what was found before; the answers to questions change the mode of the later ones", "anchors": ["src/mmcmdl.c: processCommandLine, getFullArg, cmdMatches, switchPos"]}
{"id": "C79", "title": "The text tools read and write lines faithfully", "statement": "A file (without NUL) is read by the text tools as exactly its lines, whatever their length, with or without a line end after the last one, and the file written has exactly the lines of the result, each with a line end; so a tool that changes no line leaves the file the same up to the final line end.", "quantifier": "all files, all line lengths (the buffer has 10001 bytes), all tools", "why_tests_cant": "lines of any length, pieces of the buffer ending at any place in a line or at its end", "anchors": ["src/mmvstr.c: linput", "src/metamath.c: TOOLS loops"]}
{"id": "C80", "title": "DELETE, SWAP, INSERT, MATCH, RIGHT and CLEAN edit each line by itself as documented", "statement": "DELETE removes exactly from the first start string to the first end string from there on (from the beginning or to the end if one is empty) and changes no line that lacks one; SWAP exchanges the parts around the first match; INSERT puts the string at the column, padding short lines; MATCH keeps in order exactly the lines that do or do not contain the string; RIGHT pads all lines to the length of the longest; CLEAN applies exactly the edit codes of the letters given.", "quantifier": "all files, all arguments", "why_tests_cant": "interplay of overlapping, empty and missing strings and positions beyond the line for arbitrary lines", "anchors": ["src/metamath.c: DELETE, SWAP, INSERT, MATCH, RIGHT, CLEAN"]}
{"id": "C81", "title": "SUBSTITUTE and TAG change exactly the occurrences and the range asked for", "statement": "SUBSTITUTE replaces exactly the occurrence asked for (counting overlapping ones), or for ALL every occurrence from left to right without searching the replacement, only in lines with the additional match; a string with \\n joins lines. TAG changes exactly the lines from the given start match to the given end match.", "quantifier": "all files, strings, replacements, occurrence numbers, match strings and counts", "why_tests_cant": "occurrences overlap, replacements contain the string, counts run past the file", "anchors": ["src/metamath.c: SUBSTITUTE, TAG"]}
{"id": "C82", "title": "BREAK and BUILD keep the words", "statement": "BREAK writes exactly the words of the file in order, one per line (the given characters being words themselves); BUILD joins the non-empty lines in order into lines of at most 73 characters, greedily; BREAK undoes BUILD.", "quantifier": "all files, all lists of special characters", "why_tests_cant": "all layouts of spaces, tabs, special characters and lengths", "anchors": ["src/metamath.c: BREAK, BUILD", "src/mmvstr.c: edit"]}
{"id": "C83", "title": "SORT, UNDUPLICATE, DUPLICATE, UNIQUE and REVERSE write the right lines", "statement": "SORT writes a permutation of the lines ordered by their keys; UNDUPLICATE writes each line that occurs once; DUPLICATE exactly the lines that occur at least twice, once each; UNIQUE exactly the lines that occur once; all in order, for every sort the C library may use; REVERSE reverses.", "quantifier": "all files, all keys, every behaviour of qsort that the C standard allows", "why_tests_cant": "the order of equal elements is not determined by the standard, and multiplicities and boundaries at both ends of the file are arbitrary", "anchors": ["src/metamath.c: SORT, UNDUPLICATE, DUPLICATE, UNIQUE, REVERSE", "src/mmdata.c: qsortStringCmp"]}
{"id": "C84", "title": "PARALLEL, NUMBER, COUNT and COPY compute what they say", "statement": "PARALLEL puts the lines of two files side by side to the end of the longer one; NUMBER writes the arithmetic progression; COUNT reports the number of lines, of occurrences and of lines with occurrences; COPY writes the concatenation of the files in the list, and nothing if one is missing.", "quantifier": "all files, strings, numbers, lists of files", "why_tests_cant": "files of different lengths, overlapping occurrences, progressions that do or do not hit the last number", "anchors": ["src/metamath.c: PARALLEL, NUMBER, COUNT, COPY"]}
{"id": "C85", "title": "The memory pools never give a block twice, lose one, or miscount", "statement": "After any history of allocating, freeing, shortening and purging: a new block is not one that the program holds, has the size asked for and changes none of the blocks held; freeing never touches the contents of other blocks; the allocated memory is exactly what the program holds and what is in the free pool (all of which memFreePoolPurge(0) gives back); poolTotalFree equals the sum that SHOW MEMORY computes; no array of the pools is exceeded.", "quantifier": "all histories of calls that free only what is held, all sizes, every behaviour of malloc including failure, every maximum", "why_tests_cant": "the swap-remove of the used pool, its positions in the block headers and the count depend on the whole history", "anchors": ["src/mmdata.c: poolFixedMalloc, poolMalloc, poolFree, addToUsedPool, memFreePoolPurge, getPoolStats, nmbrZapLen"]}
{"id": "C86", "title": "nmbrLet is assignment", "statement": "Every sequence of making temporary number strings, assigning them or variables to variables (also to themselves, growing, shrinking and emptying), with any nesting of the temporary stack, and returning a local string, leaves each variable and each temporary string with the value that plain values would have; no string shares memory with another or with the free pool; nothing is leaked and nothing is used after it is freed.", "quantifier": "all sequences of statements, all values and lengths, every behaviour of malloc", "why_tests_cant": "whether memory is reused, moved or doubled depends on the history of all earlier assignments", "anchors": ["src/mmdata.c: nmbrTempAlloc, nmbrMakeTempAlloc, nmbrLet, nmbrCpy, nmbrLen, nmbrAllocLen"]}
{"id": "C87", "title": "let is assignment and cat is concatenation", "statement": "Every sequence of concatenating constants, variables and temporary strings (or the rest of them from some character on), assigning them to variables (also a variable to itself, growing, shrinking and emptying), with any nesting of the temporary stack, and returning a local string, leaves each variable and each temporary string with the value that plain values would have; no string shares memory with another, nothing is leaked, used after it is freed or written beyond its block; the program stops only if malloc fails, cat has more than 50 arguments or 100 temporary strings are reached.", "quantifier": "all sequences of statements, all strings, every behaviour of malloc", "why_tests_cant": "whether a block is reused or replaced, and which temporary strings are freed, depends on the history", "anchors": ["src/mmvstr.c: let, cat, makeTempAlloc, pushTempAlloc, tempAlloc, freeTempAlloc"]}
{"id": "C88", "title": "The step a user names is the step the command works on", "statement": "ASSIGN, LET, REPLACE and IMPROVE work on the step named: nn is step nn itself and an error unless 1 \u2264 nn \u2264 the number of steps; FIRST, LAST (in any case, abbreviated at will), +n and -n are the unknown essential steps counted from the front and from the end, and an error if there are not as many; ALL only where it is allowed; everything else is an error. The negative number SHOW NEW_PROOF / UNKNOWN shows beside a step, typed back, is that step; the one shown without a number is LAST.", "quantifier": "all proofs (complete or not), all texts of at most 15 characters without a decimal point", "why_tests_cant": "which step an offset denotes depends on the whole proof, its unknown steps and which of them are essential", "anchors": ["src/mmcmds.c: getStepNum, getRelStepNums", "src/mmvstr.c: val, str, edit", "src/mmdata.c: nmbrGetEssential"]}
{"id": "C89", "title": "The statement a label or pattern selects", "statement": "ASSIGN, REPLACE, PROVE and SHOW SOURCE work on the only statement that has a label fitting the pattern, is of an allowed type, lies before the statement being proved and is no hypothesis of another statement; if there is none or (for a pattern) more than one it is an error and nothing is done. The scan for the next match gives the first one. The message names the first two matches and their number, and says that the statement comes too late exactly if one fits only there.", "quantifier": "all databases, names, patterns, ranges and sets of allowed types", "why_tests_cant": "the scan stops in different ways before and after the statement being proved, with and without wildcards, and these interact with the filters", "anchors": ["src/mmcmds.c: getStatementNum", "src/mmdata.c: matchesList"]}
{"id": "C90", "title": "IMPROVE / 2 finds a correct proof, and always answers", "statement": "IMPROVE / 2 tries the assertions before the theorem in order, permitted by the qualifiers, and offers as proofs of their hypotheses the required hypotheses of the theorem and exactly those steps of the current proof that are not the last one, are independent of the step to be proved, cite an assertion, have no dummy variable in their target and no unknown step in their subproof. What it finds is a complete proof of the step's formula, it may be inserted, and it always ends. The known/unknown flag of each step tells whether its subproof has an unknown step.", "quantifier": "all databases, sessions, steps without dummy variables, qualifiers", "why_tests_cant": "the steps that may be reused depend on the whole history of the session; a proof that reuses an unknown step, or the step itself, would be circular", "anchors": ["src/mmpfas.c: proveByReplacement, getIndepKnownSteps, getKnownSubProofs, replaceStatement"]}
{"id": "C91", "title": "IMPROVE and IMPROVE ALL only replace incomplete subproofs by correct ones, leave no step out, and end", "statement": "IMPROVE with a step replaces the incomplete subproof of that step, or does nothing; IMPROVE ALL replaces such subproofs. Each is replaced by a complete correct proof of the same formula; complete subproofs and all other steps stay. Every replacement leaves fewer unknown steps; that something was found is said exactly if something was replaced, and otherwise the session is unchanged and no eligible step was left out. If no step is unknown afterwards, the proof is a correct proof of the theorem. It always ends.", "quantifier": "all databases, sessions, methods (1 or 2), SUBPROOFS or not", "why_tests_cant": "the loop changes the proof it scans; its step numbers shift with every replacement, and later passes start from what earlier ones and the unification left", "anchors": ["src/metamath.c: IMPROVE", "src/mmpfas.c: proveFloating, proveByReplacement, autoUnify"]}
{"id": "C92", "title": "The step a step is used for, and \"isolated\" dummy variables, are found correctly", "statement": "For every step of the proof in progress there is exactly one step of which it proves a hypothesis (none for the last step), and the program finds it without an internal error. The answer about the dummy variables of a step is \"none\" exactly if its formula has none, \"isolated\" exactly if it has some and (unless it is the last step) none of them is in the formula of the step it is used for or of another $e hypothesis of that step, and otherwise \"used elsewhere\". (\"Isolated\" does not mean that they occur nowhere else: there is a session where they do.)", "quantifier": "all databases, sessions (also after a reported unification error) and steps", "why_tests_cant": "the step used for is found by counting in a proof of any shape, with steps of any number of hypotheses, and the other hypotheses by jumping back over subproofs of any size", "anchors": ["src/mmpfas.c: checkDummyVarIsolation, getParentStep", "src/metamath.c: IMPROVE, REPLACE"]}
{"id": "C93", "title": "A statement is discouraged exactly if the last comment before it says so", "statement": "Whether modifying the proof or using a statement is discouraged is answered for every assertion and hypothesis, without an internal error and independently of what was asked for before (answers are kept until ERASE). The answer is yes exactly if the statement is an assertion and the comment between the last $( and the last $) before it has the phrase \"(Proof modification is discouraged.)\" or \"(New usage is discouraged.)\", where any spaces and tabs count as one space and line breaks do not count. (A line break alone does not count as a space: a phrase broken at the left margin discourages nothing.)", "quantifier": "all texts of label sections, databases and histories of questions and ERASEs", "why_tests_cant": "comments and layouts are unbounded, and answers come from what earlier questions left behind", "anchors": ["src/mmdata.c: getMarkupFlag, getDescription", "src/mmdata.h: PROOF_DISCOURAGED_MARKUP, USAGE_DISCOURAGED_MARKUP", "src/mmcmds.c: eraseSource"]}
