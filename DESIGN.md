# Formal model of metamath-exe in Lean 4 — design

## Trusted base

* Lean 4.33.0's kernel.  Theorems depend on at most the standard axioms `propext`, `Classical.choice`, `Quot.sound`
  (`#print axioms` on any theorem named in MANIFEST.json).  No axioms of our own, no `native_decide`, no `bv_decide`.
  `decide +kernel` is used for concrete examples and finite tables only (the kernel evaluates).
* The reading of the C source in `/repo/src`: the code is not run here.  Every model definition cites the file and
  lines it models and says where it simplifies.
* Conventions of the model.  `long` is modelled by `Nat`/`Int` (no overflow); `malloc` always succeeds; a C string is
  a `List Char` without NUL; a `nmbrString` is a list (the `-1` terminator is implicit); a mutable array becomes a
  list or a function; output text is abstracted to a count/list of reported errors, except where the text itself is
  the property (C18, C29, C42, C46).  Reads outside an array, uses of uninitialised memory, and calls of `bug(n)` are
  distinct outcomes (`Out.ub`, `Out.bug n`), not assumed away.  Loops whose termination is not structural carry a
  bound; `Out.fuel` means the bound was hit and theorems show it is not (or, for the non-termination witnesses, that
  every bound is hit).
* Library functions used by the code are modelled by their contracts: `qsort` returns a sorted permutation
  (`SortOk`), `bsearch` on the sorted label keys finds an equal key iff there is one (`LookOk`); `strchr`, `strcmp`,
  `strncmp`, `strlen`, `memcpy`, `strncpy` by the obvious list functions; `sprintf("%f")` for integers by its digits.

## Layout (`lean/Verif`)

| directory | code modelled | contents |
|---|---|---|
| `Basic.lean` | — | the outcome type `Out` |
| `Spec/` | — | independent specifications: substitution, unifiers, derivations, scopes |
| `Veri/` | mmveri.c: `verifyProof`, `assignVar`, the $d check | C01–C08 for stored proofs |
| `Pars/` | mmpars.c `parseStatements` (842–1990) | C12–C15, C37, C38, C41; `ReadSpec` is the declarative rule book |
| `Lex/` | mmpars.c `parseKeywords`, `parseLabels`, the token scanners | C16, C23, C24, C42 |
| `Proof/` | mmpars.c `parseProof` (implicit format, with local labels), `parseCompressedProof` | C07, C08, C10, C11, C20, C22, C39, C40 |
| `Cmd/` | mmcmds.c `verifyProofs` | C09, C10 |
| `Data/` | mmdata.c `nmbr…` set functions, `knapsack01`; mmcmds.c/mmpars.c `compressProof`, `nmbrCvtRToVString` | C17–C19, C30, C31, C35, C43–C46 |
| `Tree/` | mmdata.c `nmbrSquishProof`, `nmbrUnsquishProof`, `nmbrGetSubproofLen`, `nmbrGetIndentation`, `nmbrGetEssential`, `nmbrGetTargetHyp` | C21, C33, C34, C47 |
| `Vstr/`, `Match/` | mmvstr.c slicing, searching, lists, `edit`; mmdata.c `matches`, `matchesList` | C25–C28, C36 |
| `Fatl/` | mmfatl.c, whole file except the `malloc`-free test code | C29 |
| `Unif/` | mmunif.c `unify`, `makeSubstUnif` (C48–C50); `unifyH`, `uniqueUnif`, `hentyNormalize` with its heap sort, `hentyMatch`, `hentyAdd` (C56; in `Henty.lean`, specification `HSpec.lean`); not `oneDirUnif` | C48–C50, C56 |
| `Trace/` | mmcmds.c `traceProof`, `traceProofWork`, `traceUsage` (not / TREE, / COUNT_STEPS, output text) | C51, C52 |
| `Pfas/` | mmpfas.c `processUndoStack`, `copyProofStruct`; the commands UNDO, REDO, SAVE NEW_PROOF, SET UNDO, the EXIT warning (metamath.c); the functions listed at C54 below and the commands that use them (metamath.c 4031–5747), the proofs found by searches being parameters | C53–C55, C57 |
| `Expd/` | mmpfas.c `expandProof`, the command EXPAND, mmpars.c `getProof` (with `Proof/NoChain.lean`: references of a parsed proof are to steps that are not references) | C58 |
| `Date/` | mmdata.c date functions, mmvstr.c `val`, `str` for integers | C32 |
| `File/` | mminou.c `fSafeOpen`, `fSafeRename`, `fGetTmpName` over a file system with failing calls and crash points (`fopen`, `remove`, `rename` by their POSIX contracts) | C59 |
| `Write/` | mmpars.c `writeSourceToBuffer`, metamath.c SAVE PROOF (what it changes in the stored source), on the memory left by `parseKeywords` | C60 |
| `Long/` | mminou.c `printLongLine`, with the part of `print2` its lines meet (length check, quoted spaces) | C61 |
| `Save/` | metamath.c SAVE PROOF: the text handed to `printLongLine` and what it leaves in the stored source, composed with `compressProof`/`nmbrCvtRToVString`, WRITE SOURCE, READ and `parseProof` | C62 |
| `Incl/` | mminou.c `readFileToString`, mmpars.c `rawWhiteSpaceLen`, `rawTokenLen`, `getNextInclusion`, `readInclude`, `readSourceAndIncludes`; `Incl/Spec.lean` is the language's definition of file inclusion | C63, C64, C65 |
| `Count/` | mmcmds.c `bigAdd`, `bigSub`, `countSteps`; `Count/Spec.lean` defines decimal values, fully expanded proofs and chains of uses | C66, C67 |
| `Expl/` | mmpars.c `parseProof` with the `/EXPLICIT` format: targets, rearrangement of subproofs, renumbering of references, the loop that moves subproofs; `Expl/Spec.lean` is a stack machine that selects subproofs by target; mmdata.c `nmbrCvtRToVString` with `explicitTargets` (`Expl/Render.lean`) | C68, C69, C45 |
| `Fmt/` | mmpars.c `outputStatement` (`Fmt/Model.lean`) and `rewrapComment` (`Fmt/Rewrap.lean`), mmcmds.c `writeSource` for `/FORMAT` and `/REWRAP`; `Fmt/Clean.lean`: what READ accepts as a section; `Fmt/Re.lean`: changes of white space; `Fmt/RC.lean`: what `rewrapComment` does to a comment; `Fmt/Print4.lean`: the non-breaking characters | C70, C71 |
| `Extr/` | mmcmds.c `writeExtractedSource` (3786–4357): the flags, the closing under blocks, frames and declarations, the search for symbols no longer declared, the statements written; mmpars.c 896–975 (the links between `${` and `$}`).  Not the comments, headings, `$t` and layout written with the statements | C72 |
| `Cmdl/` | mmcmdl.c `parseCommandLine`, `getFullArg`, the frame of `processCommandLine`, `cmdMatches`, `switchPos`; `Cmdl/LineSpec.lean` is the grammar of a command line, `Cmdl/Lists.lean` the menus of the program | C76, C77, C78 |
| `Tools/` | metamath.c 1315–2029 (the text tools), mmvstr.c `linput`, mmdata.c `qsortStringCmp`.  Not UPDATE (mmword.c), TYPE, BEEP, the messages, the sum and longest line of COUNT | C79–C84 |
| `Pool/` | mmdata.c 373–662 (the pools), 986–1135 and 1178–1222 (`nmbrLet`).  A block is its header and, for number strings, its numbers; no sizes beyond `long`, no failure of allocating the pool arrays | C85, C86 |
| `Let/` | mmvstr.c 82–258 (`let`, `cat`, temporary strings), without the counts `db`, `db1` | C87 |
| `Step/` | mmcmds.c 5467–5782 (`getStepNum`, `getRelStepNums`, `getStatementNum`), with the choice of message | C88, C89 |
| `Byrep/` | mmpfas.c 247–325, 963–1112 (`proveByReplacement`, `getIndepKnownSteps`, `getKnownSubProofs`), for searchMethod 0 | C90 |
| `Improve/` | metamath.c 4697–4990 (IMPROVE, IMPROVE ALL), without messages, undo stack and display; methods 1 and 2, with / 2 not for steps with isolated dummy variables | C91 |
| `Iso/` | mmpfas.c 2907–3030 (checkDummyVarIsolation, getParentStep) | C92 |
| `Mark/` | mmdata.c 3009–3025, 3086–3161 (`getDescription`, `getMarkupFlag`), for comments that no command changes (WRITE SOURCE / REWRAP is not followed by another question) | C93 |

Later additions are listed in MANIFEST.json.  In each directory the model is in `Model.lean` (or the file named after
the function), the specification in `Spec.lean`/`…Spec.lean`, concrete cases in `…Example.lean`; property theorems are
named `Cnn_…`.

## Properties

| id | model | proof | result |
|----|-------|-------|---|
| C01–C05 | `assignVar` matcher as a step machine over (v,p,q,len[],start[]) with explicit ub/bug outcomes | invariant "scheme prefix instantiates to instance prefix" + lexicographic order on length vectors; termination by a lexicographic measure | C05 false as stated: bug 2110 reachable (witness); rest proved |
| C06 | nested $d loops with the reqStart/optStart speed-up | list reasoning: the skipped prefix contains no pair with aToken | proved |
| C07, C08 | `verifyProof` step loop + RPN stack over C01–C06; spec = inductive derivability | simulation of the RPN stack by derivations; composed with READ and both proof parsers | proved |
| C09, C10 | `verifyProofs` driver with returned codes and errors printed | C09 is false of the code: witnesses and the corrected statement as `_partial` | C09 partial, C10 proved |
| C11 | label resolution of both proof parsers | invariant over steps | proved |
| C12–C15, C37, C38, C41 | `parseStatements` as a fold over abstract statements with activity stacks | refinement to a declarative spec of scopes; C41 is an iff | C38 partial (witnesses), rest proved |
| C16 | `parseLabels` duplicate scan over the sorted key array | adjacent duplicates in a sorted list | proved |
| C17–C20, C31, C43, C44 | label number codec, `compressProof`, `parseCompressedProof` over characters | induction; text round trip | C19, C20, C43 false in general: witnesses + safe-input theorems |
| C21, C33, C34, C47 | packing/unpacking and tree functions | proof trees and their RPN encoding; packed proofs by a stack machine | proved |
| C22, C39, C40 | token scan and resolution of `parseProof` | C22 false of the code: three witnesses + safe-input theorem | C22 partial |
| C23, C24, C42 | lexers and `parseKeywords` over byte lists | induction on text | proved |
| C25–C27, C36 | `mmvstr.c` functions | list reasoning | C25, C26, C36 partial (witnesses) |
| C28 | `matches` | refinement to declarative matching | proved |
| C29 | `mmfatl.c` buffer and format parser | invariant "the buffer holds what is shown of the text so far" over pushes | proved |
| C30 | `knapsack01` | dynamic-programming induction | proved |
| C32 | dates | arithmetic of the weights | proved |
| C35 | `nmbrUnion` etc. | list membership | proved |
| C45, C46 | `nmbrCvtRToVString` over its buffer; read back by the parser | buffer invariant; token-by-token simulation | C45 partial (witnesses) |
| C48–C50 | `unify` as a machine over its labels (scan, backtrack, switchVarToB), its stack with the saved schemes, positions and lengths | invariant `Core` (schemes = given schemes under the stack's substitution, prefixes equal); the search as an inductive tree over all further calls, by induction on the unknown variables left and the lengths left | proved; incompleteness of general unification and the defects with empty substitutions as witnesses |
| C56 | `hentyNormalize` (reversal of variable-for-variable bindings, heap sort of the rows, rebuilding of the list), the filter loop of `unifyH`, `uniqueUnif` | heap sort = sorted permutation; two answers with equal normal forms are equal up to renaming; loop invariant: every answer passed over has the normal form of one that was given | partial: `uniqueUnif` may return 3 although the answer is unique up to renaming (`C56_several_false`); proved for one-sided matching |
| C53 | the static variables of processUndoStack as a record with an explicit array; commands as a small state machine | simulation: the array represents an ideal history (zipper) | proved |
| C54, C55 | the functions of mmpfas.c that change the proof in progress (`addSubProof`, `deleteSubProof`, `initStep`, `assignStatement`, `assignKnownSteps`, `assignKnownSubProofs`, `autoUnify`, `makeSubstAll`, `replaceDummyVar`, `initProofStruct`) over the four parallel arrays; sessions as an inductive set of states; the unification functions are a parameter with the contract `Unifier.Ok` (an answer of `unifyH` is a unifier; a second answer differs), which C48 and C56 justify | representation of the arrays by a forest (invariant: node = instance of its assertion under one substitution), kept by every command | C55 proved; C54 partial: after a reported "Could not simultaneously unify", INITIALIZE ALL and UNIFY ALL congratulate the user on a wrong proof (`C54_whole_statement_false`) |
| C57 | `Realises`: the unification parameter of C54/C55 is what `unifyH`/`uniqueUnif` of `Unif/` answer (by C56 the contract `Unifier.Ok` holds of them, so C54 and C55 hold of the real unification) | measure: number of dummy variables in the proof; each successful unification of different strings removes one; invariant: no string holds the separator | proved (SET EMPTY_SUBSTITUTION off, Henty filter on) |
| C51, C52 | worklist of traceProofWork over what parseProof and nmbrGetEssential deliver; the text search of traceUsage over the source | worklist invariant (closed below the position, list = flags); the filter commutes with the closure; after READ the hypotheses hold, and the label of every step is a token of the text | C51 proved; C52 partial: a comment in the label list hides a use (witness) |
| C58 | the loops of `expandProof` with `nmbrGetSubproofLen`, `nmbrMid`; EXPAND with the real `matchesList`; the stored proofs are what `parseProof` returns for a text | proof trees; the result is fixed by a stack machine that replaces uses (`Inlines`); termination by a cost that each replacement lowers; substitution lemma for derivations | proved; a dummy variable of the source becomes an unknown step (witness) |
| C59 | the calls `fopen`, `remove`, `rename` on a map from names to contents, an environment that lets any call fail, the list of all directories there have been | loop invariants for the scan and the renaming loop; crash points are the recorded directories; saves by induction on the history | proved; that `rename` does not fail is needed (witness) |
| C60 | the statements of `parseKeywords` as pointers and lengths, the buffer with its computed size (write or read outside: undefined), SAVE PROOF with any proof text and note | size and copy loops by induction; `parseKeywords` and `readRawSource` run on any text put together from sections; READ looks only at the words of the label and math sections | proved; the note must have no `$` (witness: SET CONTRIBUTOR takes any name) |
| C61 | the loops of `printLongLine` with all modes of the break string in use, the growing screen width, the cut indentation, 1-based string functions from mmvstr.c | loop invariant against an inductive relation `Wrapped` (how a line may be broken); words, printable characters, widths and the shape of compressed proofs follow from it | proved (width ≥ 5; SET WIDTH allows 3 and 4, see the witnesses) |
| C62 | composition of the models of C18/C46 (proof to text), C61 (wrapping), C60 (SAVE PROOF, WRITE SOURCE, READ) and `parseProof` | the text stored by SAVE PROOF satisfies the conditions of C60; the re-read proof section is that text; C46/C18 are about any layout of it | normal format proved; compressed format `C62_compressed_partial` (condition `NotTakenForOld`; false without it: `C62_witness_wrap`) |
| C63 | `readFileToString`, `getNextInclusion`, `readInclude`, `readSourceAndIncludes` | spec: relation `Expands` on the words outside comments (`$[ f $]` replaced by the contents the first time, by nothing later); both directions by induction (over the derivation; over the run of the program), and `readRawSource` rejects what is left of malformed inclusions | `_partial`: plain non-empty files without the program's own markup comments that do not include the main file; witnesses `main_included`, `empty_file`, `markup_swallows`, `block_nested` |
| C64 | the same model, fuel for the loop and the recursion | lexicographic induction: number of files not yet met, length of the text left | proved for all contents of finitely many files |
| C65 | the same model | the expanded text with its Begin/End/Skip comments is a fixed point of the expansion for every other set of files; induction over `Expands` | `_partial`: file names none of which is the beginning of another one; witness `prefix_names` |
| C66 | `bigAdd`, `bigSub` on strings of digits, position by position | loop invariant on the value of the low digits; 9s complement identity | proved |
| C67 | `countSteps` with its memo arrays, the recursion, the totals and the longest path | spec: a stack machine that grafts fully expanded proofs (`Expanded`); invariant: the running count is the total size of the stack, memo cells are right, statements counted are those reached | `_partial`: proofs saved in normal format, theorems that use each of their hypotheses exactly once; witnesses `C67_hypothesis_twice`, `C67_compressed`, `C67_internal_error` |
| C68 | `parseProofX`: the whole of parseProof for non-compressed proofs, including explicit targets | simulation: after each step the rearranged proof and `oldStepNums` represent the stack of the spec machine; each move keeps the meaning (`Expands`) and lowers a measure, so the loop ends | proved (iff); for texts in the form `label* target = step`; soundness for any text |
| C69 | `nmbrCvtRToVStringX`: the explicit branch of nmbrCvtRToVString, with `nmbrGetTargetHyp` of C34 | the targets written run the stack machine of C68 in the order of the database; then C68's loop has nothing to move | proved; the buffer size is part of C45 (`C45_explicit_safe_partial`) |
| C70 | outputStatement on the stored statements, then writeSourceToBuffer of C60 | each edit of a section is a chain of replacements of white space by white space (`Re`), which keep the words; comments wrapped by printLongLine keep their words by C61; so READ sees the same words (C60's `read_alike`) | partial: needs the layout `Laid` (a comment does not share the line of a `$e`/`$f` label after a line break, the description comes directly before the label of a `$a`/`$p`, not too many tabs); false without it, see the witnesses. That there is no carriage return is what `readFileToString` sees to |
| C71 | rewrapComment, the line wrapping and the turning back of the non-breaking characters | every step keeps `$(` *text* `$)` with the same letters (`RC`: insertions of spaces, white space changed place by place, and the period); C61 keeps words and non-breaking characters on the way to the lines; after `restore` none is left because the first and last two solid characters are the comment marks | partial: the layout of C70, and not if bug 1730 stops the command (`C71_witness_bug`) |
| C72 | writeExtractedSource on the database left by parseStatements | the flags are characterised by an inductive closure (wanted, enclosing blocks, frames, declarations); which statements are active is transferred along the increasing map old number → new number; then C41's exact acceptance conditions are checked one by one for the extract | partial: not if a `$a` extracted is below a `$d` with a variable not mandatory for it (`C72_axiom_loses_variable`); the theorem says READ accepts the extract exactly if the `$d` variables are declared |
| C73 | writeExtractedSource followed by parseStatements, parseProof, parseCompressedProof and verifyProof on the result | a renaming of token numbers (`tau`, injective on the tokens used) and of statement numbers (`pos`) carries frames, RPN derivations (`rpn_carry`), stack depths and references of the source to the extract; C08, C39 (completeness) then give acceptance; the witness is evaluated |
| C74 | proveFloating (self scan of the proof in progress, loop over statements, unifications and reordered hypotheses, the static trials/maxDepthExceeded, the saved hypProofList), quickMatchFilter; messages are left out | every list returned extends any RPN derivation by the formula (`Good`), by induction on the depth (`search_sound`); hypOrdMap stays a permutation, so on success every stale hypothesis proof is overwritten; termination by accessibility of 'next answer of unifyH' (`first_acc`) and induction on the depth; the witness (a step assigned with / NO_UNIFY) is evaluated |
| C75 | replaceStatement with searchMethod 0 (order of the hypotheses, scan of required hypotheses and steps, re-entry flags 1/2/3, saved state vectors, backtracking, proveFloating for `$f`), checkStmtMatch, minimizeProof; `g_unifTrialCount` at re-entry is arbitrary; messages are left out | invariant of the slots (`Inv`: below the position every slot holds a match whose unification state belongs to the present string, above nothing was tried), composition of the substitutions of all answers into one (`comp_all`), so the concatenation extends any RPN derivation (`repl_good`); an inserted correct proof leaves its root unified because what an RPN proof proves is determined (`rpn_det`); termination by accessibility, from the last hypothesis down |
| C76 | parseCommandLine (the four modes, columns with the prompt added); no NUL in a line | the arguments satisfy the grammar `Reads` (LineSpec.lean) and only they do (`C76_arguments`, iff), by induction over the line with the mode as a parameter |
| C77 | getFullArg: numbers, strings, files, menus with defaults, `$`, asking the user; the answers of the user are a function of the number of the question, prompts and texts are left out | the loop over the choices equals a filter (`scan_spec`), so each outcome is characterised by an iff; numbers with `val`/`str` of MM.Date |
| C78 | processCommandLine as a tree of calls of getFullArg (parameter `next`; the constant lists of the program are transcribed in Lists.lean), its end, cmdMatches, switchPos | each accepted argument is accepted again as itself (`Again`), then induction over the tree; cmdMatches by counting the spaces |
| C79 | fgets, the loop of linput with its buffer, the read and write loops | induction over the pieces of a line, then over the lines; the lines of a text are unique |
| C80 | the bodies of the loop for the commands | first occurrence from C26, left/right from C25, edit from C36; letters of CLEAN by the bits of the sum |
| C81 | the loop of SUBSTITUTE with the buffered line, the counters of TAG | loop invariant: the occurrences up to the position; for ALL the part already done is not searched again; positions for TAG |
| C82 | the inner loop of BREAK, edit 152, the line being built | a reader of words as a fold, on which adding spaces has no effect twice; groups of lines for BUILD |
| C83 | qsort as any permutation in order; the tests on neighbours; the swaps of REVERSE | equal lines are together in a sorted list, so first/last of its kind is a test on the neighbour |
| C84 | the loops of the commands | induction over the lines, fuel for loops that may not end |
| C85 | the two pools and the heap; malloc is any function that gives unallocated addresses or fails | an invariant of the state and the blocks held, preserved by each elementary step (take from, drop, enter, leave a pool, resize), then induction over histories |
| C86 | variables as pointers into that heap, the stack of temporary strings | simulation: each block of a variable has its value, disjointness and no leak, preserved by each statement |
| C87 | the heap of C strings, variables and the stack of temporary strings as pointers into it | the same simulation as C86; the source of an assignment may be a part of a string |
| C88 | the decoding of the text and the two scans over the steps; the essential flags are those of C34 | each scan returns the entry of the filtered list of steps; case analysis of the text |
| C89 | the loop over the statements, with the model of `matchesList` | the loop is a fold over the filtered list of statements below `maxStmt`, then a search above it |
| C90 | the two functions that choose the steps, the loop over the statements, on top of the model of `replaceStatement` (C75), for searchMethod 0 and a step without dummy variables | the forest of subproofs (C53) gives the subproof of every step; the scan from the end marks exactly those without the step; soundness and ending from C75 with the range of all steps. Partial: `$d` conditions are not checked by the code unless NO_DISTINCT is given |
| C91 | the command with its passes, on top of C74, C90 and the session of C53–C57 | what the two algorithms find is right in a state with unified known steps; inserting it keeps such a state (C75), unification too; induction over steps and passes. Partial: `$d` conditions; nothing is claimed after a reported unification error; with / 2, steps with isolated dummy variables are left out |
| C92 | the two functions on the states of sessions (C55) | the steps form a tree (C55); the scan leaves the number of complete trees on the counter, so it stops at the parent; the loop over the hypotheses goes through the subtrees; the specification (`Row`, `HypSteps`) speaks of reverse Polish segments only, and is shown to have one solution |
| C93 | label sections are texts; the static variables as strings that every question changes | the specification (`LastComment`, `Reads`) speaks of the text before `edit`; induction over the text relates it to discarding, trimming and reducing; an invariant says that what is kept is right |

`partial` in MANIFEST.json means in every case: the English property is false of the code, the theorem set contains a
machine-checked counterexample (an execution of the model on a concrete input), and the theorem with the suffix
`_partial` proves the property under the stated extra condition.

## Findings about the real code

* verifyProofs prints its success message after $d violations, ambiguous unifications and proofs of the wrong formula
  (C09 witnesses): these are reported but do not change the return code.
* bug 2110 can be reached with an unknown step (C05).
* parseStatements reads outside `symbolLenExists` for a symbol longer than every declared one (C38); bugs 1708, 1710,
  1718 are reachable after an error.
* parseProof reads or writes out of bounds on `a : : b`, trailing `:`, repeated local labels (C22);
  parseCompressedProof on an empty label map, a deep stack, long numbers, a tiny section (C20).
* The "old compression" heuristic misreads a proof the program itself wrote, for more than 120 mandatory hypotheses
  (C19); compression does not end for a label longer than the line (C43); nmbrCvtRToVString can overflow (C45).
* mmvstr: `mid` beyond the end, `edit` with tab codes, `rinstr` with an empty string (C25, C26, C36).
* parseDate takes any unknown month for January (C32).
* unify with `SET EMPTY_SUBSTITUTION ON` reads before the start of a scheme that begins with an unknown variable (C49 witness)
  and does not try a variable of the second scheme that follows a separator (C50 witness); in general (two schemes with
  unknowns) it misses unifiers whose values end within each other's tokens (C50 witness).
* hentyNormalize's inner loop looks at element `hentyVarStart[i]` in every round (its counter `j` is not used), so equivalent unifications are not
  always recognised and `uniqueUnif` reports several (C56 witness).
* SHOW USAGE / DIRECT misses a theorem whose compressed proof has a comment between its parentheses (C52 witness) and calls bug 217 for a
  proof that starts with `(` when no `)` follows in the file; traceProofWork does not free `traceToFilter`; under / ESSENTIAL the flags of a
  packed proof are those of the first occurrence of a subproof.
* assignKnownSteps copies the sources to the targets even when it reported that the hypotheses do not unify; after INITIALIZE ALL the
  Proof Assistant therefore congratulates the user on a wrong proof (C54 witness; VERIFY PROOF rejects it).
* UNDO after INITIALIZE ALL does not restore `g_pipDummyVars` (reset to 0), so new dummy variables may coincide with old ones (by C54
  this costs no soundness); interactiveMatch, when the choice is from the time-out list, reads `matchList` at its terminator; DELETE STEP
  reads `proof[s - 1]` before the step number is checked.
* fSafeOpen does not look at the result of `rename`: if it fails, the file is truncated all the same and its old contents are lost, and
  with them possibly a version (C59 witnesses); writeSource prints the NULL file pointer with `%s` when the file cannot be opened.
* SET CONTRIBUTOR accepts a name with `$)`; SAVE PROOF then writes a comment that ends early, and READ rejects the written source (C60 witness).
* SET WIDTH accepts 3 and 4. With 4 `printLongLine` cuts the indentation to nothing, so that SAVE PROOF may stop with BUG #1128; with 3 lines that need a margin stop with BUG #1524 (C61 witnesses).
* The heuristic for the obsolete compression algorithm searches the text of the proof for `UU` without skipping line ends. If SAVE PROOF / COMPRESSED breaks every `UU` at a line end and a `UV` remains, the program reads its own output as a different proof (`C62_witness_wrap`: 120 mandatory hypotheses, width 7; any width is possible).
* `getSourceIndentation` (mmdata.c 2984) compares `mathSectionPtr` with `labelSectionPtr`, which after a SAVE PROOF that added a contributor note point into different allocations; the walk backwards then may read before the source buffer if the statement is on the first line (not modelled).
* When a word is too long for the screen, `printLongLine` restarts with a wider screen, and the line then loses its indentation (`Ind` in `Long/Spec.lean` allows this).
* mmfatl: the final line feed may itself be what makes the ellipsis appear (C29 example).
* nmbrUnsquishProof leaves a reference to a reference unexpanded (C21 requires references to real steps);
  nmbrRevInstr/nmbrSeg/nmbrMid read out of bounds for some arguments.
* A file that includes the main file (even the main file including itself), which the language allows and ignores, stops the program with `bug(1765)`: entry 0 of `g_IncludeCall[]` is the main file and its `pushOrPop` is 0 (`Incl/Example.lean` `main_included`).
* `readFileToString` tests `fileBuf[charCount - 1]` of an empty file: out of bounds (`empty_file`).
* `getNextInclusion` compares the name after `$( End $[` with `strncmp(*fileName, fbPtr, j)` where `j` is the length of the name found: a shorter name that is a beginning of the open one counts as its end. The expanded text of files `ab` and `a`, `ab` including `a`, cannot be read again (`prefix_names`).
* In the case 'B' of `readInclude` (a block `$( Begin $[ f $] $)` … `$( End $[ f $] $)` in a file) the expansion of the block is used only for its length: a `$[ g $]` in it stays in the text, and the program continues at a wrong place, possibly behind the buffer (`block_nested`). `$( Begin ..` without End near the end of the file also leads behind the buffer (`markup_swallows`). `current_includeSource` is cleared right after it is stored, so that the later comparison of two sources is always with an empty string.
* A UTF-16 file with Mac line ends is read as one line (`utf16_mac`): in that branch all carriage returns are dropped.
* SHOW TRACE_BACK / COUNT_STEPS subtracts one step per hypothesis of each theorem used.  The number of steps it reports for the fully expanded proof is wrong when a theorem uses a hypothesis twice or not at all (`C67_hypothesis_twice`); when the proof is saved in compressed format, where a repeated argument is not counted but its hypothesis is subtracted, the number can fall below zero, and `bigSub("", "1")` is "8" (`C67_compressed`); if the `double` count becomes 0 while the digits do not, the statement is counted again and the program stops with `bug(264)` (`C67_internal_error`).
* In an explicit proof a step without a target is reported, but afterwards the missing target is the literal `""`, into which the program writes a NUL (`C68_missing_target_ub`: a crash where literals are read-only).  A `=` before the first target or after the last step is accepted silently (`C68_stray_equals`).
- WRITE SOURCE / FORMAT can write a file READ does not accept, or lose comments (`C70_witness_comment_cut`, `C70_witness_comment_lost`, `C70_witness_label_twice`): if a comment of several lines ends on
- WRITE SOURCE / EXTRACT can write a file READ does not accept (`C72_axiom_loses_variable`): parseStatements stores the optional variables and hypotheses only for `$p` statements, but the `$d` statements above a `$a` are extracted whole, so a `$d x y $.` above a `$a` that does not mention `y` is extracted without the `$v` of `y`.
- WRITE SOURCE / REWRAP stops with bug 1730 ("should have been syntax err") on a legal comment of a `$a` or `$p` that ends with an empty line, as in `$( A thing`⏎⏎`$)` (`C71_witness_bug`): only a single line break at the end is turned into a space before the test.
  the line of the label of a `$e` or `$f`, its last line is dropped with its `$)`; a comment between the label and `$e`/`$f` is dropped; a comment between the label and `$a`/`$p` makes the label appear
  twice.
- WRITE SOURCE / EXTRACT can write a theorem whose proof was verified and no longer is (`C73_unused_label_lost`): a compressed proof may list a label in its parentheses that no letter refers to; traceProofWork looks only at the steps, so the statement of that label is not extracted, and parseCompressedProof rejects the unknown label.
- IMPROVE can insert a wrong subproof (`C74_stale_subproof`): proveFloating looks for a step whose *target* is the formula and copies its subproof if that is complete, without checking that the step's source equals its target; after ASSIGN / NO_UNIFY the two can differ. (The congratulations are not printed then, C54.)
- A number argument may be negative although a number of lines or steps is asked for, even in the form `0-5` (`C77_negative_accepted`: SET WIDTH -5).
- Answering a question for a keyword with the word `nothing` (small letters) skips the argument even where it is not optional (`C78_nothing_answer`: CLOSE, then `nothing`).
- FIRST, LAST and ALL are accepted wherever the question, with its default, has these words in it: after SET CONTRIBUTOR "J. ALLEN" the name `ada` becomes `ALL` (`C78_contributor`).
- `SEARCH "/" ALL` is a label and a string, but the command then also finds the switch / ALL (`C78_quoted_switch`).
- By reading only: SET WIDTH offers the screen *height* as its default (mmcmdl.c 1125); the first switch of FILE SEARCH never has FROM_LINE as default, since `i == 4` is tested after `i` became 5 (mmcmdl.c 341); `str` prints into 50 bytes, which a number argument of more than 42 digits overflows.
- A line that begins with NUL makes `linput` read before its buffer (`C79_nul`: `f[strlen(f) - 1]` with an empty string).
- DELETE searches the end string from the beginning of the start string, so the two may overlap: deleting from `/*` to `*/` in `/*/ b */` removes only `/*/` (`C80_delete_overlap`).
- SUBSTITUTE with `\n` in the string loses an empty line after a line that does not match (`C81_empty_line_lost`), since an empty buffered line is taken for none.
- COUNT of an empty string never ends on a file that is not empty (`C84_count_endless`), nor does SUBSTITUTE of an empty string with ALL (`C84_substitute_endless`; it also allocates without end), nor NUMBER with an increment that is not positive (`C84_number_endless`): `instr` finds an empty string at the end of every line.
- HELP COPY says that UNIQUE after COPY 1,1,2 gives the lines of 2 that are not in 1; it gives only those that are in 2 once (`C83_difference`).
- By reading only: `list2_fname[strlen(list2_fname) - 2]` reads before a file name of one character; INSERT with a column below 1 inserts at the beginning; SUBSTITUTE with the occurrence -1 means ALL; COPY does not close its output file if an input file is missing.
- By reading only: `memFreePoolPurge` does not check the `malloc` of the shrunk pool array; if it fails, the next `poolFree` writes to a null pointer.
- `let(&s, s + k)` copies between overlapping strings, which C leaves undefined (`C87_own_part`); the program does not do it, but relies on `let(&s, s)` (mmwtex.c 980), which is undefined too and is modelled as harmless.
- C88: an empty text for a step means FIRST (`left("FIRST", 0)` is empty too).  C89: with `efOnlyForMaxStmt` and `maxStmt` beyond the last statement, a fitting label is internal error 247 (`C89_bug247`); no caller does this.
- C91 (not modelled, from reading): IMPROVE ALL with more than one pass announces "Steps n and above have been renumbered" with the n of the last replacement, although an earlier pass may have
  replaced an earlier step (metamath.c 4928 overwrites `n`).
- C92: the comment "if not, they will not occur outside of the subproof of the parent step" (mmpfas.c 2941–2942) is wrong (`C92_isolated_may_occur_elsewhere`): after LET VARIABLE a dummy variable may
  occur in two subproofs without occurring in the steps between them. IMPROVE / 2 may then replace such a step although its dummy variables matter elsewhere.
- C93: a line break alone does not count as a space (`C93_line_break_at_margin`): if `(New usage is discouraged.)` is broken between two lines and the second one is not indented, the statement is not
  discouraged, because `edit` with code 4 joins the words (mmdata.c 3140–3141).


## Not modelled

`replaceStatement` and `proveByReplacement` with searchMethod 1 (IMPROVE / 3) or for a step with dummy variables, `interactiveMatch`, `oneDirUnif`, the tree of commands itself (mmcmdl.c 43–1569; C78 is for every tree), prompts, help, HTML/TeX output
(mmwtex.c), input/output (mminou.c) except the safe file operations, UPDATE (mmword.c), line numbers, messages and the directory prefix in include expansion
before the text is split into statements, memory management of `pntrString`s (the code is that of `nmbrString`s), and interaction with
the user.  Floating point is used by the code only for `val`/`str`.
