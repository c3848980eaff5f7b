import Verif.Cmdl.Process
/-!
# The questions of the program (src/mmcmdl.c 43–1569)
-/
namespace MM.Cmdl
open MM.Vstr MM.Date

/-- The lists of choices that `processCommandLine` has (src/mmcmdl.c 43–1569; the line of the first use of each behind it). -/
def keyLists : List Str := [
  ['D', 'B', 'G', '|', 'H', 'E', 'L', 'P', '|', 'R', 'E', 'A', 'D', '|', 'W', 'R', 'I', 'T', 'E', '|', 'P', 'R', 'O', 'V', 'E', '|', 'S', 'H', 'O', 'W', '|', 'S', 'E', 'A', 'R', 'C', 'H', '|', 'S', 'A', 'V', 'E', '|', 'S', 'U', 'B', 'M', 'I', 'T', '|', 'O', 'P', 'E', 'N', '|', 'C', 'L', 'O', 'S', 'E', '|', 'S', 'E', 'T', '|', 'F', 'I', 'L', 'E', '|', 'B', 'E', 'E', 'P', '|', 'E', 'X', 'I', 'T', '|', 'Q', 'U', 'I', 'T', '|', 'E', 'R', 'A', 'S', 'E', '|', 'V', 'E', 'R', 'I', 'F', 'Y', '|', 'M', 'A', 'R', 'K', 'U', 'P', '|', 'M', 'O', 'R', 'E', '|', 'T', 'O', 'O', 'L', 'S', '|', 'M', 'I', 'D', 'I', '|', '<', 'H', 'E', 'L', 'P', '>'] /- 55: `DBG|HELP|READ|WRITE|PROVE|SHOW|SEARCH|SAVE|SUBMIT|OPEN|CLOSE|SET|FILE|BEEP|EXIT|QUIT|ERASE|VERIFY|MARKUP|MORE|TOOLS|MIDI|<HELP>` -/,
  ['D', 'B', 'G', '|', 'H', 'E', 'L', 'P', '|', 'W', 'R', 'I', 'T', 'E', '|', 'S', 'H', 'O', 'W', '|', 'S', 'E', 'A', 'R', 'C', 'H', '|', 'S', 'A', 'V', 'E', '|', 'S', 'U', 'B', 'M', 'I', 'T', '|', 'O', 'P', 'E', 'N', '|', 'C', 'L', 'O', 'S', 'E', '|', 'S', 'E', 'T', '|', 'F', 'I', 'L', 'E', '|', 'B', 'E', 'E', 'P', '|', 'E', 'X', 'I', 'T', '|', '_', 'E', 'X', 'I', 'T', '_', 'P', 'A', '|', 'Q', 'U', 'I', 'T', '|', 'V', 'E', 'R', 'I', 'F', 'Y', '|', 'I', 'N', 'I', 'T', 'I', 'A', 'L', 'I', 'Z', 'E', '|', 'A', 'S', 'S', 'I', 'G', 'N', '|', 'R', 'E', 'P', 'L', 'A', 'C', 'E', '|', 'L', 'E', 'T', '|', 'U', 'N', 'I', 'F', 'Y', '|', 'I', 'M', 'P', 'R', 'O', 'V', 'E', '|', 'M', 'I', 'N', 'I', 'M', 'I', 'Z', 'E', '_', 'W', 'I', 'T', 'H', '|', 'E', 'X', 'P', 'A', 'N', 'D', '|', 'M', 'A', 'T', 'C', 'H', '|', 'D', 'E', 'L', 'E', 'T', 'E', '|', 'U', 'N', 'D', 'O', '|', 'R', 'E', 'D', 'O', '|', 'M', 'A', 'R', 'K', 'U', 'P', '|', 'M', 'O', 'R', 'E', '|', 'T', 'O', 'O', 'L', 'S', '|', 'M', 'I', 'D', 'I', '|', '<', 'H', 'E', 'L', 'P', '>'] /- 62: `DBG|HELP|WRITE|SHOW|SEARCH|SAVE|SUBMIT|OPEN|CLOSE|SET|FILE|BEEP|EXIT|_EXIT_PA|QUIT|VERIFY|INITIALIZE|ASSIGN|REPLACE|LET|UNIFY|IMPROVE|MINIMIZE_WITH|EXPAND|MATCH|DELETE|UNDO|REDO|MARKUP|MORE|TOOLS|MIDI|<HELP>` -/,
  ['L', 'A', 'N', 'G', 'U', 'A', 'G', 'E', '|', 'P', 'R', 'O', 'O', 'F', '_', 'A', 'S', 'S', 'I', 'S', 'T', 'A', 'N', 'T', '|', 'M', 'M', '-', 'P', 'A', '|', 'B', 'E', 'E', 'P', '|', 'E', 'X', 'I', 'T', '|', 'Q', 'U', 'I', 'T', '|', 'R', 'E', 'A', 'D', '|', 'E', 'R', 'A', 'S', 'E', '|', 'O', 'P', 'E', 'N', '|', 'C', 'L', 'O', 'S', 'E', '|', 'S', 'H', 'O', 'W', '|', 'S', 'E', 'A', 'R', 'C', 'H', '|', 'S', 'E', 'T', '|', 'V', 'E', 'R', 'I', 'F', 'Y', '|', 'S', 'U', 'B', 'M', 'I', 'T', '|', 'S', 'Y', 'S', 'T', 'E', 'M', '|', 'P', 'R', 'O', 'V', 'E', '|', 'F', 'I', 'L', 'E', '|', 'W', 'R', 'I', 'T', 'E', '|', 'M', 'A', 'R', 'K', 'U', 'P', '|', 'A', 'S', 'S', 'I', 'G', 'N', '|', 'R', 'E', 'P', 'L', 'A', 'C', 'E', '|', 'M', 'A', 'T', 'C', 'H', '|', 'U', 'N', 'I', 'F', 'Y', '|', 'L', 'E', 'T', '|', 'I', 'N', 'I', 'T', 'I', 'A', 'L', 'I', 'Z', 'E', '|', 'D', 'E', 'L', 'E', 'T', 'E', '|', 'I', 'M', 'P', 'R', 'O', 'V', 'E', '|', 'M', 'I', 'N', 'I', 'M', 'I', 'Z', 'E', '_', 'W', 'I', 'T', 'H', '|', 'E', 'X', 'P', 'A', 'N', 'D', '|', 'U', 'N', 'D', 'O', '|', 'R', 'E', 'D', 'O', '|', 'S', 'A', 'V', 'E', '|', 'D', 'E', 'M', 'O', '|', 'I', 'N', 'V', 'O', 'K', 'E', '|', 'C', 'L', 'I', '|', 'E', 'X', 'P', 'L', 'O', 'R', 'E', '|', 'T', 'E', 'X', '|', 'L', 'A', 'T', 'E', 'X', '|', 'H', 'T', 'M', 'L', '|', 'C', 'O', 'M', 'M', 'E', 'N', 'T', 'S', '|', 'B', 'I', 'B', 'L', 'I', 'O', 'G', 'R', 'A', 'P', 'H', 'Y', '|', 'M', 'O', 'R', 'E', '|', 'T', 'O', 'O', 'L', 'S', '|', 'M', 'I', 'D', 'I', '|', '$', '|', '<', '$', '>'] /- 74: `LANGUAGE|PROOF_ASSISTANT|MM-PA|BEEP|EXIT|QUIT|READ|ERASE|OPEN|CLOSE|SHOW|SEARCH|SET|VERIFY|SUBMIT|SYSTEM|PROVE|FILE|WRITE|MARKUP|ASSIGN|REPLACE|MATCH|UNIFY|LET|INITIALIZE|DELETE|IMPROVE|MINIMIZE_WITH|EXPAND|UNDO|REDO|SAVE|DEMO|INVOKE|CLI|EXPLORE|TEX|LATEX|HTML|COMMENTS|BIBLIOGRAPHY|MORE|TOOLS|MIDI|$|<$>` -/,
  ['L', 'O', 'G', '|', 'T', 'E', 'X', '|', '<', 'L', 'O', 'G', '>'] /- 82: `LOG|TEX|<LOG>` -/,
  ['M', 'E', 'M', 'O', 'R', 'Y', '|', 'S', 'E', 'T', 'T', 'I', 'N', 'G', 'S', '|', 'L', 'A', 'B', 'E', 'L', 'S', '|', 'S', 'O', 'U', 'R', 'C', 'E', '|', 'S', 'T', 'A', 'T', 'E', 'M', 'E', 'N', 'T', '|', 'P', 'R', 'O', 'O', 'F', '|', 'N', 'E', 'W', '_', 'P', 'R', 'O', 'O', 'F', '|', 'U', 'S', 'A', 'G', 'E', '|', 'T', 'R', 'A', 'C', 'E', '_', 'B', 'A', 'C', 'K', '|', 'E', 'L', 'A', 'P', 'S', 'E', 'D', '_', 'T', 'I', 'M', 'E', '|', 'D', 'I', 'S', 'C', 'O', 'U', 'R', 'A', 'G', 'E', 'D', '|', '<', 'M', 'E', 'M', 'O', 'R', 'Y', '>'] /- 90: `MEMORY|SETTINGS|LABELS|SOURCE|STATEMENT|PROOF|NEW_PROOF|USAGE|TRACE_BACK|ELAPSED_TIME|DISCOURAGED|<MEMORY>` -/,
  ['E', 'C', 'H', 'O', '|', 'S', 'C', 'R', 'O', 'L', 'L', '|', 'W', 'I', 'D', 'T', 'H', '|', 'H', 'E', 'I', 'G', 'H', 'T', '|', 'U', 'N', 'D', 'O', '|', 'U', 'N', 'I', 'F', 'I', 'C', 'A', 'T', 'I', 'O', 'N', '_', 'T', 'I', 'M', 'E', 'O', 'U', 'T', '|', 'D', 'I', 'S', 'C', 'O', 'U', 'R', 'A', 'G', 'E', 'M', 'E', 'N', 'T', '|', 'C', 'O', 'N', 'T', 'R', 'I', 'B', 'U', 'T', 'O', 'R', '|', 'R', 'O', 'O', 'T', '_', 'D', 'I', 'R', 'E', 'C', 'T', 'O', 'R', 'Y', '|', 'E', 'M', 'P', 'T', 'Y', '_', 'S', 'U', 'B', 'S', 'T', 'I', 'T', 'U', 'T', 'I', 'O', 'N', '|', 'S', 'E', 'A', 'R', 'C', 'H', '_', 'L', 'I', 'M', 'I', 'T', '|', 'J', 'E', 'R', 'E', 'M', 'Y', '_', 'H', 'E', 'N', 'T', 'Y', '_', 'F', 'I', 'L', 'T', 'E', 'R', '|', '<', 'E', 'C', 'H', 'O', '>'] /- 98: `ECHO|SCROLL|WIDTH|HEIGHT|UNDO|UNIFICATION_TIMEOUT|DISCOURAGEMENT|CONTRIBUTOR|ROOT_DIRECTORY|EMPTY_SUBSTITUTION|SEARCH_LIMIT|JEREMY_HENTY_FILTER|<ECHO>` -/,
  ['P', 'R', 'O', 'O', 'F', '|', 'M', 'A', 'R', 'K', 'U', 'P', '|', '<', 'P', 'R', 'O', 'O', 'F', '>'] /- 109: `PROOF|MARKUP|<PROOF>` -/,
  ['S', 'O', 'U', 'R', 'C', 'E', '|', 'T', 'H', 'E', 'O', 'R', 'E', 'M', '_', 'L', 'I', 'S', 'T', '|', 'B', 'I', 'B', 'L', 'I', 'O', 'G', 'R', 'A', 'P', 'H', 'Y', '|', 'R', 'E', 'C', 'E', 'N', 'T', '_', 'A', 'D', 'D', 'I', 'T', 'I', 'O', 'N', 'S', '|', '<', 'S', 'O', 'U', 'R', 'C', 'E', '>'] /- 114: `SOURCE|THEOREM_LIST|BIBLIOGRAPHY|RECENT_ADDITIONS|<SOURCE>` -/,
  ['S', 'E', 'A', 'R', 'C', 'H'] /- 120: `SEARCH` -/,
  ['P', 'R', 'O', 'O', 'F', '|', 'N', 'E', 'W', '_', 'P', 'R', 'O', 'O', 'F', '|', '<', 'P', 'R', 'O', 'O', 'F', '>'] /- 125: `PROOF|NEW_PROOF|<PROOF>` -/,
  ['/', '|', '$', '|', '<', '$', '>'] /- 140: `/|$|<$>` -/,
  ['V', 'E', 'R', 'I', 'F', 'Y', '|', '<', 'V', 'E', 'R', 'I', 'F', 'Y', '>'] /- 143: `VERIFY|<VERIFY>` -/,
  ['F', 'O', 'R', 'M', 'A', 'T', '|', 'R', 'E', 'W', 'R', 'A', 'P', '|', 'S', 'P', 'L', 'I', 'T', '|', 'N', 'O', '_', 'V', 'E', 'R', 'S', 'I', 'O', 'N', 'I', 'N', 'G', '|', 'K', 'E', 'E', 'P', '_', 'I', 'N', 'C', 'L', 'U', 'D', 'E', 'S', '|', 'E', 'X', 'T', 'R', 'A', 'C', 'T', '|', '<', 'R', 'E', 'W', 'R', 'A', 'P', '>'] /- 176: `FORMAT|REWRAP|SPLIT|NO_VERSIONING|KEEP_INCLUDES|EXTRACT|<REWRAP>` -/,
  ['T', 'H', 'E', 'O', 'R', 'E', 'M', 'S', '_', 'P', 'E', 'R', '_', 'P', 'A', 'G', 'E', '|', 'S', 'H', 'O', 'W', '_', 'L', 'E', 'M', 'M', 'A', 'S', '|', 'H', 'T', 'M', 'L', '|', 'A', 'L', 'T', '_', 'H', 'T', 'M', 'L', '|', 'N', 'O', '_', 'V', 'E', 'R', 'S', 'I', 'O', 'N', 'I', 'N', 'G', '|', '<', 'T', 'H', 'E', 'O', 'R', 'E', 'M', 'S', '_', 'P', 'E', 'R', '_', 'P', 'A', 'G', 'E', '>'] /- 206: `THEOREMS_PER_PAGE|SHOW_LEMMAS|HTML|ALT_HTML|NO_VERSIONING|<THEOREMS_PER_PAGE>` -/,
  ['L', 'I', 'M', 'I', 'T', '|', 'H', 'T', 'M', 'L', '|', 'A', 'L', 'T', '_', 'H', 'T', 'M', 'L', '|', '<', 'L', 'I', 'M', 'I', 'T', '>'] /- 254: `LIMIT|HTML|ALT_HTML|<LIMIT>` -/,
  ['N', 'O', '_', 'H', 'E', 'A', 'D', 'E', 'R', '|', 'O', 'L', 'D', '_', 'T', 'E', 'X', '|', '<', 'N', 'O', '_', 'H', 'E', 'A', 'D', 'E', 'R', '>'] /- 308: `NO_HEADER|OLD_TEX|<NO_HEADER>` -/,
  ['F', 'R', 'O', 'M', '_', 'L', 'I', 'N', 'E', '|', 'T', 'O', '_', 'L', 'I', 'N', 'E', '|', '<', 'F', 'R', 'O', 'M', '_', 'L', 'I', 'N', 'E', '>'] /- 342: `FROM_LINE|TO_LINE|<FROM_LINE>` -/,
  ['F', 'R', 'O', 'M', '_', 'L', 'I', 'N', 'E', '|', 'T', 'O', '_', 'L', 'I', 'N', 'E', '|', '<', 'T', 'O', '_', 'L', 'I', 'N', 'E', '>'] /- 346: `FROM_LINE|TO_LINE|<TO_LINE>` -/,
  ['S', 'E', 'T', 'T', 'I', 'N', 'G', 'S', '|', 'L', 'A', 'B', 'E', 'L', 'S', '|', 'S', 'T', 'A', 'T', 'E', 'M', 'E', 'N', 'T', '|', 'S', 'O', 'U', 'R', 'C', 'E', '|', 'P', 'R', 'O', 'O', 'F', '|', 'M', 'E', 'M', 'O', 'R', 'Y', '|', 'T', 'R', 'A', 'C', 'E', '_', 'B', 'A', 'C', 'K', '|', 'U', 'S', 'A', 'G', 'E', '|', 'E', 'L', 'A', 'P', 'S', 'E', 'D', '_', 'T', 'I', 'M', 'E', '|', 'D', 'I', 'S', 'C', 'O', 'U', 'R', 'A', 'G', 'E', 'D', '|', '<', 'S', 'E', 'T', 'T', 'I', 'N', 'G', 'S', '>'] /- 378: `SETTINGS|LABELS|STATEMENT|SOURCE|PROOF|MEMORY|TRACE_BACK|USAGE|ELAPSED_TIME|DISCOURAGED|<SETTINGS>` -/,
  ['N', 'E', 'W', '_', 'P', 'R', 'O', 'O', 'F', '|', 'S', 'E', 'T', 'T', 'I', 'N', 'G', 'S', '|', 'L', 'A', 'B', 'E', 'L', 'S', '|', 'S', 'T', 'A', 'T', 'E', 'M', 'E', 'N', 'T', '|', 'S', 'O', 'U', 'R', 'C', 'E', '|', 'P', 'R', 'O', 'O', 'F', '|', 'M', 'E', 'M', 'O', 'R', 'Y', '|', 'T', 'R', 'A', 'C', 'E', '_', 'B', 'A', 'C', 'K', '|', 'U', 'S', 'A', 'G', 'E', '|', 'E', 'L', 'A', 'P', 'S', 'E', 'D', '_', 'T', 'I', 'M', 'E', '|', 'D', 'I', 'S', 'C', 'O', 'U', 'R', 'A', 'G', 'E', 'D', '|', '<', 'S', 'E', 'T', 'T', 'I', 'N', 'G', 'S', '>'] /- 383: `NEW_PROOF|SETTINGS|LABELS|STATEMENT|SOURCE|PROOF|MEMORY|TRACE_BACK|USAGE|ELAPSED_TIME|DISCOURAGED|<SETTINGS>` -/,
  ['A', 'L', 'L', '|', 'E', 'S', 'S', 'E', 'N', 'T', 'I', 'A', 'L', '|', 'A', 'X', 'I', 'O', 'M', 'S', '|', 'T', 'R', 'E', 'E', '|', 'D', 'E', 'P', 'T', 'H', '|', 'C', 'O', 'U', 'N', 'T', '_', 'S', 'T', 'E', 'P', 'S', '|', 'M', 'A', 'T', 'C', 'H', '|', 'T', 'O', '|', '<', 'A', 'L', 'L', '>'] /- 413: `ALL|ESSENTIAL|AXIOMS|TREE|DEPTH|COUNT_STEPS|MATCH|TO|<ALL>` -/,
  ['D', 'I', 'R', 'E', 'C', 'T', '|', 'R', 'E', 'C', 'U', 'R', 'S', 'I', 'V', 'E', '|', 'A', 'L', 'L', '|', '<', 'D', 'I', 'R', 'E', 'C', 'T', '>'] /- 457: `DIRECT|RECURSIVE|ALL|<DIRECT>` -/,
  ['A', 'L', 'L', '|', 'L', 'I', 'N', 'E', 'A', 'R', '|', '<', 'A', 'L', 'L', '>'] /- 485: `ALL|LINEAR|<ALL>` -/,
  ['F', 'U', 'L', 'L', '|', 'C', 'O', 'M', 'M', 'E', 'N', 'T', '|', 'T', 'E', 'X', '|', 'O', 'L', 'D', '_', 'T', 'E', 'X', '|', 'H', 'T', 'M', 'L', '|', 'A', 'L', 'T', '_', 'H', 'T', 'M', 'L', '|', 'T', 'I', 'M', 'E', '|', 'B', 'R', 'I', 'E', 'F', '_', 'H', 'T', 'M', 'L', '|', 'B', 'R', 'I', 'E', 'F', '_', 'A', 'L', 'T', '_', 'H', 'T', 'M', 'L', '|', 'M', 'N', 'E', 'M', 'O', 'N', 'I', 'C', 'S', '|', 'N', 'O', '_', 'V', 'E', 'R', 'S', 'I', 'O', 'N', 'I', 'N', 'G', '|', '<', 'F', 'U', 'L', 'L', '>'] /- 509: `FULL|COMMENT|TEX|OLD_TEX|HTML|ALT_HTML|TIME|BRIEF_HTML|BRIEF_ALT_HTML|MNEMONICS|NO_VERSIONING|<FULL>` -/,
  ['E', 'S', 'S', 'E', 'N', 'T', 'I', 'A', 'L', '|', 'A', 'L', 'L', '|', 'U', 'N', 'K', 'N', 'O', 'W', 'N', '|', 'F', 'R', 'O', 'M', '_', 'S', 'T', 'E', 'P', '|', 'T', 'O', '_', 'S', 'T', 'E', 'P', '|', 'D', 'E', 'P', 'T', 'H', '|', 'R', 'E', 'V', 'E', 'R', 'S', 'E', '|', 'V', 'E', 'R', 'B', 'O', 'S', 'E', '|', 'N', 'O', 'R', 'M', 'A', 'L', '|', 'P', 'A', 'C', 'K', 'E', 'D', '|', 'C', 'O', 'M', 'P', 'R', 'E', 'S', 'S', 'E', 'D', '|', 'E', 'X', 'P', 'L', 'I', 'C', 'I', 'T', '|', 'F', 'A', 'S', 'T', '|', 'O', 'L', 'D', '_', 'C', 'O', 'M', 'P', 'R', 'E', 'S', 'S', 'I', 'O', 'N', '|', 'S', 'T', 'A', 'T', 'E', 'M', 'E', 'N', 'T', '_', 'S', 'U', 'M', 'M', 'A', 'R', 'Y', '|', 'D', 'E', 'T', 'A', 'I', 'L', 'E', 'D', '_', 'S', 'T', 'E', 'P', '|', 'T', 'E', 'X', '|', 'O', 'L', 'D', '_', 'T', 'E', 'X', '|', 'H', 'T', 'M', 'L', '|', 'L', 'E', 'M', 'M', 'O', 'N', '|', 'S', 'T', 'A', 'R', 'T', '_', 'C', 'O', 'L', 'U', 'M', 'N', '|', 'N', 'O', '_', 'R', 'E', 'P', 'E', 'A', 'T', 'E', 'D', '_', 'S', 'T', 'E', 'P', 'S', '|', 'R', 'E', 'N', 'U', 'M', 'B', 'E', 'R', '|', 'S', 'I', 'Z', 'E', '|', '<', 'E', 'S', 'S', 'E', 'N', 'T', 'I', 'A', 'L', '>'] /- 548: `ESSENTIAL|ALL|UNKNOWN|FROM_STEP|TO_STEP|DEPTH|REVERSE|VERBOSE|NORMAL|PACKED|COMPRESSED|EXPLICIT|FAST|OLD_COMPRESSION|STATEMENT_SUMMARY|DETAILED_STEP|TEX|OLD_TEX|HTML|LEMMON|START_COLUMN|NO_REPEATED_STEPS|RENUMBER|SIZE|<ESSENTIAL>` -/,
  ['E', 'S', 'S', 'E', 'N', 'T', 'I', 'A', 'L', '|', 'A', 'L', 'L', '|', 'U', 'N', 'K', 'N', 'O', 'W', 'N', '|', 'F', 'R', 'O', 'M', '_', 'S', 'T', 'E', 'P', '|', 'T', 'O', '_', 'S', 'T', 'E', 'P', '|', 'D', 'E', 'P', 'T', 'H', '|', 'R', 'E', 'V', 'E', 'R', 'S', 'E', '|', 'V', 'E', 'R', 'B', 'O', 'S', 'E', '|', 'N', 'O', 'R', 'M', 'A', 'L', '|', 'P', 'A', 'C', 'K', 'E', 'D', '|', 'C', 'O', 'M', 'P', 'R', 'E', 'S', 'S', 'E', 'D', '|', 'E', 'X', 'P', 'L', 'I', 'C', 'I', 'T', '|', 'O', 'L', 'D', '_', 'C', 'O', 'M', 'P', 'R', 'E', 'S', 'S', 'I', 'O', 'N', '|', 'N', 'O', 'T', '_', 'U', 'N', 'I', 'F', 'I', 'E', 'D', '|', 'T', 'E', 'X', '|', 'H', 'T', 'M', 'L', '|', 'L', 'E', 'M', 'M', 'O', 'N', '|', 'S', 'T', 'A', 'R', 'T', '_', 'C', 'O', 'L', 'U', 'M', 'N', '|', 'N', 'O', '_', 'R', 'E', 'P', 'E', 'A', 'T', 'E', 'D', '_', 'S', 'T', 'E', 'P', 'S', '|', 'R', 'E', 'N', 'U', 'M', 'B', 'E', 'R', '|', '<', 'E', 'S', 'S', 'E', 'N', 'T', 'I', 'A', 'L', '>'] /- 604: `ESSENTIAL|ALL|UNKNOWN|FROM_STEP|TO_STEP|DEPTH|REVERSE|VERBOSE|NORMAL|PACKED|COMPRESSED|EXPLICIT|OLD_COMPRESSION|NOT_UNIFIED|TEX|HTML|LEMMON|START_COLUMN|NO_REPEATED_STEPS|RENUMBER|<ESSENTIAL>` -/,
  ['A', 'L', 'L', '|', 'C', 'O', 'M', 'M', 'E', 'N', 'T', 'S', '|', 'J', 'O', 'I', 'N', '|', '<', 'A', 'L', 'L', '>'] /- 662: `ALL|COMMENTS|JOIN|<ALL>` -/,
  ['P', 'R', 'O', 'O', 'F', '|', '<', 'P', 'R', 'O', 'O', 'F', '>'] /- 674: `PROOF|<PROOF>` -/,
  ['N', 'E', 'W', '_', 'P', 'R', 'O', 'O', 'F', '|', 'P', 'R', 'O', 'O', 'F', '|', '<', 'N', 'E', 'W', '_', 'P', 'R', 'O', 'O', 'F', '>'] /- 678: `NEW_PROOF|PROOF|<NEW_PROOF>` -/,
  ['N', 'O', 'R', 'M', 'A', 'L', '|', 'P', 'A', 'C', 'K', 'E', 'D', '|', 'C', 'O', 'M', 'P', 'R', 'E', 'S', 'S', 'E', 'D', '|', 'E', 'X', 'P', 'L', 'I', 'C', 'I', 'T', '|', 'F', 'A', 'S', 'T', '|', 'O', 'L', 'D', '_', 'C', 'O', 'M', 'P', 'R', 'E', 'S', 'S', 'I', 'O', 'N', '|', 'T', 'I', 'M', 'E', '|', '<', 'N', 'O', 'R', 'M', 'A', 'L', '>'] /- 706: `NORMAL|PACKED|COMPRESSED|EXPLICIT|FAST|OLD_COMPRESSION|TIME|<NORMAL>` -/,
  ['N', 'O', 'R', 'M', 'A', 'L', '|', 'P', 'A', 'C', 'K', 'E', 'D', '|', 'C', 'O', 'M', 'P', 'R', 'E', 'S', 'S', 'E', 'D', '|', 'E', 'X', 'P', 'L', 'I', 'C', 'I', 'T', '|', 'O', 'L', 'D', '_', 'C', 'O', 'M', 'P', 'R', 'E', 'S', 'S', 'I', 'O', 'N', '|', 'O', 'V', 'E', 'R', 'R', 'I', 'D', 'E', '|', '<', 'N', 'O', 'R', 'M', 'A', 'L', '>'] /- 732: `NORMAL|PACKED|COMPRESSED|EXPLICIT|OLD_COMPRESSION|OVERRIDE|<NORMAL>` -/,
  ['O', 'V', 'E', 'R', 'R', 'I', 'D', 'E', '|', '<', 'O', 'V', 'E', 'R', 'R', 'I', 'D', 'E', '>'] /- 771: `OVERRIDE|<OVERRIDE>` -/,
  ['S', 'T', 'E', 'P', '|', 'A', 'L', 'L', '|', '<', 'A', 'L', 'L', '>'] /- 784: `STEP|ALL|<ALL>` -/,
  ['M', 'A', 'X', '_', 'E', 'S', 'S', 'E', 'N', 'T', 'I', 'A', 'L', '_', 'H', 'Y', 'P', '|', '<', 'M', 'A', 'X', '_', 'E', 'S', 'S', 'E', 'N', 'T', 'I', 'A', 'L', '_', 'H', 'Y', 'P', '>'] /- 795: `MAX_ESSENTIAL_HYP|<MAX_ESSENTIAL_HYP>` -/,
  ['E', 'S', 'S', 'E', 'N', 'T', 'I', 'A', 'L', '|', 'M', 'A', 'X', '_', 'E', 'S', 'S', 'E', 'N', 'T', 'I', 'A', 'L', '_', 'H', 'Y', 'P', '|', '<', 'E', 'S', 'S', 'E', 'N', 'T', 'I', 'A', 'L', '>'] /- 819: `ESSENTIAL|MAX_ESSENTIAL_HYP|<ESSENTIAL>` -/,
  ['S', 'T', 'E', 'P', '|', 'A', 'L', 'L', '|', 'U', 'S', 'E', 'R', '|', '<', 'A', 'L', 'L', '>'] /- 839: `STEP|ALL|USER|<ALL>` -/,
  ['D', 'E', 'P', 'T', 'H', '|', 'N', 'O', '_', 'D', 'I', 'S', 'T', 'I', 'N', 'C', 'T', '|', '1', '|', '2', '|', '3', '|', 'S', 'U', 'B', 'P', 'R', 'O', 'O', 'F', 'S', '|', 'O', 'V', 'E', 'R', 'R', 'I', 'D', 'E', '|', 'I', 'N', 'C', 'L', 'U', 'D', 'E', '_', 'M', 'A', 'T', 'H', 'B', 'O', 'X', 'E', 'S', '|', '<', 'D', 'E', 'P', 'T', 'H', '>'] /- 857: `DEPTH|NO_DISTINCT|1|2|3|SUBPROOFS|OVERRIDE|INCLUDE_MATHBOXES|<DEPTH>` -/,
  ['V', 'E', 'R', 'B', 'O', 'S', 'E', '|', 'M', 'A', 'Y', '_', 'G', 'R', 'O', 'W', '|', 'E', 'X', 'C', 'E', 'P', 'T', '|', 'O', 'V', 'E', 'R', 'R', 'I', 'D', 'E', '|', 'I', 'N', 'C', 'L', 'U', 'D', 'E', '_', 'M', 'A', 'T', 'H', 'B', 'O', 'X', 'E', 'S', '|', 'A', 'L', 'L', 'O', 'W', '_', 'N', 'E', 'W', '_', 'A', 'X', 'I', 'O', 'M', 'S', '|', 'N', 'O', '_', 'N', 'E', 'W', '_', 'A', 'X', 'I', 'O', 'M', 'S', '_', 'F', 'R', 'O', 'M', '|', 'F', 'O', 'R', 'B', 'I', 'D', '|', 'T', 'I', 'M', 'E', '|', '<', 'V', 'E', 'R', 'B', 'O', 'S', 'E', '>'] /- 881: `VERBOSE|MAY_GROW|EXCEPT|OVERRIDE|INCLUDE_MATHBOXES|ALLOW_NEW_AXIOMS|NO_NEW_AXIOMS_FROM|FORBID|TIME|<VERBOSE>` -/,
  ['I', 'N', 'T', 'E', 'R', 'A', 'C', 'T', 'I', 'V', 'E', '|', '<', 'I', 'N', 'T', 'E', 'R', 'A', 'C', 'T', 'I', 'V', 'E', '>'] /- 935: `INTERACTIVE|<INTERACTIVE>` -/,
  ['S', 'T', 'E', 'P', '|', 'A', 'L', 'L', '|', 'F', 'L', 'O', 'A', 'T', 'I', 'N', 'G', '_', 'H', 'Y', 'P', 'O', 'T', 'H', 'E', 'S', 'E', 'S', '|', '<', 'S', 'T', 'E', 'P', '>'] /- 948: `STEP|ALL|FLOATING_HYPOTHESES|<STEP>` -/,
  ['U', 'N', 'I', 'V', 'E', 'R', 'S', 'E', '|', '<', 'U', 'N', 'I', 'V', 'E', 'R', 'S', 'E', '>'] /- 959: `UNIVERSE|<UNIVERSE>` -/,
  ['S', 'T', 'E', 'P', '|', 'V', 'A', 'R', 'I', 'A', 'B', 'L', 'E', '|', '<', 'S', 'T', 'E', 'P', '>'] /- 989: `STEP|VARIABLE|<STEP>` -/,
  ['=', '|', '<', '=', '>'] /- 997: `=|<=>` -/,
  ['N', 'O', '_', 'U', 'N', 'I', 'F', 'Y', '|', 'O', 'V', 'E', 'R', 'R', 'I', 'D', 'E', '|', '<', 'N', 'O', '_', 'U', 'N', 'I', 'F', 'Y', '>'] /- 1013: `NO_UNIFY|OVERRIDE|<NO_UNIFY>` -/,
  ['W', 'I', 'D', 'T', 'H', '|', 'H', 'E', 'I', 'G', 'H', 'T', '|', 'U', 'N', 'D', 'O', '|', 'E', 'C', 'H', 'O', '|', 'S', 'C', 'R', 'O', 'L', 'L', '|', 'D', 'E', 'B', 'U', 'G', '|', 'M', 'E', 'M', 'O', 'R', 'Y', '_', 'S', 'T', 'A', 'T', 'U', 'S', '|', 'S', 'E', 'A', 'R', 'C', 'H', '_', 'L', 'I', 'M', 'I', 'T', '|', 'U', 'N', 'I', 'F', 'I', 'C', 'A', 'T', 'I', 'O', 'N', '_', 'T', 'I', 'M', 'E', 'O', 'U', 'T', '|', 'D', 'I', 'S', 'C', 'O', 'U', 'R', 'A', 'G', 'E', 'M', 'E', 'N', 'T', '|', 'C', 'O', 'N', 'T', 'R', 'I', 'B', 'U', 'T', 'O', 'R', '|', 'R', 'O', 'O', 'T', '_', 'D', 'I', 'R', 'E', 'C', 'T', 'O', 'R', 'Y', '|', 'E', 'M', 'P', 'T', 'Y', '_', 'S', 'U', 'B', 'S', 'T', 'I', 'T', 'U', 'T', 'I', 'O', 'N', '|', 'J', 'E', 'R', 'E', 'M', 'Y', '_', 'H', 'E', 'N', 'T', 'Y', '_', 'F', 'I', 'L', 'T', 'E', 'R', '|', '<', 'W', 'I', 'D', 'T', 'H', '>'] /- 1031: `WIDTH|HEIGHT|UNDO|ECHO|SCROLL|DEBUG|MEMORY_STATUS|SEARCH_LIMIT|UNIFICATION_TIMEOUT|DISCOURAGEMENT|CONTRIBUTOR|ROOT_DIRECTORY|EMPTY_SUBSTITUTION|JEREMY_HENTY_FILTER|<WIDTH>` -/,
  ['F', 'L', 'A', 'G', '|', 'O', 'F', 'F', '|', '<', 'O', 'F', 'F', '>'] /- 1040: `FLAG|OFF|<OFF>` -/,
  ['4', '|', '5', '|', '6', '|', '7', '|', '8', '|', '9', '|', '<', '5', '>'] /- 1042: `4|5|6|7|8|9|<5>` -/,
  ['O', 'N', '|', 'O', 'F', 'F', '|', '<', 'O', 'F', 'F', '>'] /- 1049: `ON|OFF|<OFF>` -/,
  ['O', 'N', '|', 'O', 'F', 'F', '|', '<', 'O', 'N', '>'] /- 1051: `ON|OFF|<ON>` -/,
  ['C', 'O', 'N', 'T', 'I', 'N', 'U', 'O', 'U', 'S', '|', 'P', 'R', 'O', 'M', 'P', 'T', 'E', 'D', '|', '<', 'C', 'O', 'N', 'T', 'I', 'N', 'U', 'O', 'U', 'S', '>'] /- 1058: `CONTINUOUS|PROMPTED|<CONTINUOUS>` -/,
  ['C', 'O', 'N', 'T', 'I', 'N', 'U', 'O', 'U', 'S', '|', 'P', 'R', 'O', 'M', 'P', 'T', 'E', 'D', '|', '<', 'P', 'R', 'O', 'M', 'P', 'T', 'E', 'D', '>'] /- 1060: `CONTINUOUS|PROMPTED|<PROMPTED>` -/,
  ['S', 'Y', 'N', 'T', 'A', 'X', '_', 'O', 'N', 'L', 'Y', '|', '<', 'S', 'Y', 'N', 'T', 'A', 'X', '_', 'O', 'N', 'L', 'Y', '>'] /- 1194: `SYNTAX_ONLY|<SYNTAX_ONLY>` -/,
  ['D', 'A', 'T', 'E', '_', 'S', 'K', 'I', 'P', '|', 'F', 'I', 'L', 'E', '_', 'S', 'K', 'I', 'P', '|', 'T', 'O', 'P', '_', 'D', 'A', 'T', 'E', '_', 'S', 'K', 'I', 'P', '|', 'V', 'E', 'R', 'B', 'O', 'S', 'E', '|', 'F', 'I', 'L', 'E', '_', 'C', 'H', 'E', 'C', 'K', '|', 'T', 'O', 'P', '_', 'D', 'A', 'T', 'E', '_', 'C', 'H', 'E', 'C', 'K', '|', 'U', 'N', 'D', 'E', 'R', 'S', 'C', 'O', 'R', 'E', '_', 'S', 'K', 'I', 'P', '|', 'M', 'A', 'T', 'H', 'B', 'O', 'X', '_', 'S', 'K', 'I', 'P', '|', '<', 'D', 'A', 'T', 'E', '_', 'S', 'K', 'I', 'P', '>'] /- 1223: `DATE_SKIP|FILE_SKIP|TOP_DATE_SKIP|VERBOSE|FILE_CHECK|TOP_DATE_CHECK|UNDERSCORE_SKIP|MATHBOX_SKIP|<DATE_SKIP>` -/,
  ['H', 'T', 'M', 'L', '|', 'A', 'L', 'T', '_', 'H', 'T', 'M', 'L', '|', 'S', 'Y', 'M', 'B', 'O', 'L', 'S', '|', 'L', 'A', 'B', 'E', 'L', 'S', '|', 'N', 'U', 'M', 'B', 'E', 'R', '_', 'A', 'F', 'T', 'E', 'R', '_', 'L', 'A', 'B', 'E', 'L', '|', 'B', 'I', 'B', '_', 'R', 'E', 'F', 'S', '|', 'U', 'N', 'D', 'E', 'R', 'S', 'C', 'O', 'R', 'E', 'S', '|', 'C', 'S', 'S', '|', '<', 'A', 'L', 'T', '_', 'H', 'T', 'M', 'L', '>'] /- 1265: `HTML|ALT_HTML|SYMBOLS|LABELS|NUMBER_AFTER_LABEL|BIB_REFS|UNDERSCORES|CSS|<ALT_HTML>` -/,
  ['P', 'A', 'R', 'A', 'M', 'E', 'T', 'E', 'R', '|', '<', 'P', 'A', 'R', 'A', 'M', 'E', 'T', 'E', 'R', '>'] /- 1292: `PARAMETER|<PARAMETER>` -/,
  ['F', 'O', 'R', 'C', 'E', '|', '<', 'F', 'O', 'R', 'C', 'E', '>'] /- 1315: `FORCE|<FORCE>` -/,
  ['H', 'E', 'L', 'P', '|', 'S', 'U', 'B', 'M', 'I', 'T', '|', 'A', 'D', 'D', '|', 'D', 'E', 'L', 'E', 'T', 'E', '|', 'S', 'U', 'B', 'S', 'T', 'I', 'T', 'U', 'T', 'E', '|', 'S', '|', 'S', 'W', 'A', 'P', '|', 'C', 'L', 'E', 'A', 'N', '|', 'I', 'N', 'S', 'E', 'R', 'T', '|', 'B', 'R', 'E', 'A', 'K', '|', 'B', 'U', 'I', 'L', 'D', '|', 'M', 'A', 'T', 'C', 'H', '|', 'S', 'O', 'R', 'T', '|', 'U', 'N', 'D', 'U', 'P', 'L', 'I', 'C', 'A', 'T', 'E', '|', 'D', 'U', 'P', 'L', 'I', 'C', 'A', 'T', 'E', '|', 'U', 'N', 'I', 'Q', 'U', 'E', '|', 'R', 'E', 'V', 'E', 'R', 'S', 'E', '|', 'R', 'I', 'G', 'H', 'T', '|', 'P', 'A', 'R', 'A', 'L', 'L', 'E', 'L', '|', 'N', 'U', 'M', 'B', 'E', 'R', '|', 'C', 'O', 'U', 'N', 'T', '|', 'C', 'O', 'P', 'Y', '|', 'C', '|', 'T', 'Y', 'P', 'E', '|', 'T', '|', 'T', 'A', 'G', '|', 'U', 'P', 'D', 'A', 'T', 'E', '|', 'B', 'E', 'E', 'P', '|', 'B', '|', 'E', 'X', 'I', 'T', '|', 'Q', 'U', 'I', 'T', '|', '<', 'H', 'E', 'L', 'P', '>'] /- 1328: `HELP|SUBMIT|ADD|DELETE|SUBSTITUTE|S|SWAP|CLEAN|INSERT|BREAK|BUILD|MATCH|SORT|UNDUPLICATE|DUPLICATE|UNIQUE|REVERSE|RIGHT|PARALLEL|NUMBER|COUNT|COPY|C|TYPE|T|TAG|UPDATE|BEEP|B|EXIT|QUIT|<HELP>` -/,
  ['A', 'D', 'D', '|', 'D', 'E', 'L', 'E', 'T', 'E', '|', 'S', 'U', 'B', 'S', 'T', 'I', 'T', 'U', 'T', 'E', '|', 'S', '|', 'S', 'W', 'A', 'P', '|', 'C', 'L', 'E', 'A', 'N', '|', 'I', 'N', 'S', 'E', 'R', 'T', '|', 'B', 'R', 'E', 'A', 'K', '|', 'B', 'U', 'I', 'L', 'D', '|', 'M', 'A', 'T', 'C', 'H', '|', 'S', 'O', 'R', 'T', '|', 'U', 'N', 'D', 'U', 'P', 'L', 'I', 'C', 'A', 'T', 'E', '|', 'D', 'U', 'P', 'L', 'I', 'C', 'A', 'T', 'E', '|', 'U', 'N', 'I', 'Q', 'U', 'E', '|', 'R', 'E', 'V', 'E', 'R', 'S', 'E', '|', 'R', 'I', 'G', 'H', 'T', '|', 'P', 'A', 'R', 'A', 'L', 'L', 'E', 'L', '|', 'N', 'U', 'M', 'B', 'E', 'R', '|', 'C', 'O', 'U', 'N', 'T', '|', 'T', 'Y', 'P', 'E', '|', 'T', '|', 'T', 'A', 'G', '|', 'U', 'P', 'D', 'A', 'T', 'E', '|', 'B', 'E', 'E', 'P', '|', 'B', '|', 'E', 'X', 'I', 'T', '|', 'Q', 'U', 'I', 'T', '|', 'C', 'O', 'P', 'Y', '|', 'C', '|', 'S', 'U', 'B', 'M', 'I', 'T', '|', 'S', 'Y', 'S', 'T', 'E', 'M', '|', 'C', 'L', 'I', '|', '$', '|', '<', '$', '>'] /- 1337: `ADD|DELETE|SUBSTITUTE|S|SWAP|CLEAN|INSERT|BREAK|BUILD|MATCH|SORT|UNDUPLICATE|DUPLICATE|UNIQUE|REVERSE|RIGHT|PARALLEL|NUMBER|COUNT|TYPE|T|TAG|UPDATE|BEEP|B|EXIT|QUIT|COPY|C|SUBMIT|SYSTEM|CLI|$|<$>` -/,
  ['S', 'I', 'L', 'E', 'N', 'T', '|', '<', 'S', 'I', 'L', 'E', 'N', 'T', '>'] /- 1552: `SILENT|<SILENT>` -/]

/-- The constant questions for any string that `processCommandLine` has (src/mmcmdl.c 43–1569; the line of the first use of each behind it). -/
def starLists : List Str := [
  ['*', ' ', 'W', 'h', 'a', 't', ' ', 's', 't', 'a', 't', 'e', 'm', 'e', 'n', 't', ' ', 'l', 'a', 'b', 'e', 'l', '?', ' '] /- 183: `* What statement label? ` -/,
  ['*', ' ', 'W', 'h', 'a', 't', ' ', 'i', 's', ' ', 't', 'h', 'e', ' ', 'b', 'i', 'b', 'l', 'i', 'o', 'g', 'r', 'a', 'p', 'h', 'y', ' ', 'H', 'T', 'M', 'L', ' ', 'i', 'n', 'p', 'u', 't', '/', 'o', 'u', 't', 'p', 'u', 't', ' ', 'f', 'i', 'l', 'e', ' ', '<', 'm', 'm', 'b', 'i', 'b', 'l', 'i', 'o', '.', 'h', 't', 'm', 'l', '>', '?', ' '] /- 227: `* What is the bibliography HTML input/output file <mmbiblio.html>? ` -/,
  ['*', ' ', 'W', 'h', 'a', 't', ' ', 'i', 's', ' ', 't', 'h', 'e', ' ', 'R', 'e', 'c', 'e', 'n', 't', ' ', 'A', 'd', 'd', 'i', 't', 'i', 'o', 'n', 's', ' ', 'H', 'T', 'M', 'L', ' ', 'i', 'n', 'p', 'u', 't', '/', 'o', 'u', 't', 'p', 'u', 't', ' ', 'f', 'i', 'l', 'e', ' ', '<', 'm', 'm', 'r', 'e', 'c', 'e', 'n', 't', '.', 'h', 't', 'm', 'l', '>', '?', ' '] /- 240: `* What is the Recent Additions HTML input/output file <mmrecent.html>? ` -/,
  ['*', ' ', 'W', 'h', 'a', 't', ' ', 'i', 's', ' ', 't', 'h', 'e', ' ', 'n', 'a', 'm', 'e', ' ', 'o', 'f', ' ', 'l', 'o', 'g', 'g', 'i', 'n', 'g', ' ', 'o', 'u', 't', 'p', 'u', 't', ' ', 'f', 'i', 'l', 'e', '?', ' '] /- 282: `* What is the name of logging output file? ` -/,
  ['*', ' ', 'W', 'h', 'a', 't', ' ', 'i', 's', ' ', 't', 'h', 'e', ' ', 'n', 'a', 'm', 'e', ' ', 'o', 'f', ' ', 'L', 'a', 'T', 'e', 'X', ' ', 'o', 'u', 't', 'p', 'u', 't', ' ', 'f', 'i', 'l', 'e', '?', ' '] /- 298: `* What is the name of LaTeX output file? ` -/,
  ['*', ' ', 'W', 'h', 'a', 't', ' ', 'i', 's', ' ', 't', 'h', 'e', ' ', 's', 't', 'r', 'i', 'n', 'g', ' ', 't', 'o', ' ', 's', 'e', 'a', 'r', 'c', 'h', ' ', 'f', 'o', 'r', '?', ' '] /- 331: `* What is the string to search for? ` -/,
  ['*', ' ', 'W', 'h', 'a', 't', ' ', 'a', 'r', 'e', ' ', 't', 'h', 'e', ' ', 'l', 'a', 'b', 'e', 'l', 's', ' ', 't', 'o', ' ', 'm', 'a', 't', 'c', 'h', ' ', '(', '*', ' ', '=', ' ', 'w', 'i', 'l', 'd', 'c', 'a', 'r', 'd', ')', ' ', '<', '*', '>', '?'] /- 475: `* What are the labels to match (* = wildcard) <*>?` -/,
  ['*', ' ', 'S', 'e', 'a', 'r', 'c', 'h', ' ', 'f', 'o', 'r', ' ', 'w', 'h', 'a', 't', ' ', 'm', 'a', 't', 'h', ' ', 's', 'y', 'm', 'b', 'o', 'l', ' ', 's', 't', 'r', 'i', 'n', 'g', '?', ' '] /- 653: `* Search for what math symbol string? ` -/,
  ['*', ' ', 'W', 'h', 'a', 't', ' ', 's', 't', 'e', 'p', ' ', 'n', 'u', 'm', 'b', 'e', 'r', ',', ' ', 'o', 'r', ' ', 'F', 'I', 'R', 'S', 'T', ',', ' ', 'o', 'r', ' ', 'L', 'A', 'S', 'T', ',', ' ', 'o', 'r', ' ', 'A', 'L', 'L', ' ', '<', 'A', 'L', 'L', '>', '?', ' '] /- 848: `* What step number, or FIRST, or LAST, or ALL <ALL>? ` -/,
  ['*', ' ', 'W', 'h', 'a', 't', ' ', 's', 't', 'a', 't', 'e', 'm', 'e', 'n', 't', ' ', 'l', 'a', 'b', 'e', 'l', ' ', 'm', 'a', 't', 'c', 'h', ' ', 'p', 'a', 't', 't', 'e', 'r', 'n', '?', ' '] /- 889: `* What statement label match pattern? ` -/,
  ['*', ' ', 'W', 'h', 'a', 't', ' ', 's', 't', 'e', 'p', ' ', 'n', 'u', 'm', 'b', 'e', 'r', ',', ' ', 'o', 'r', ' ', 'F', 'I', 'R', 'S', 'T', ',', ' ', 'o', 'r', ' ', 'L', 'A', 'S', 'T', ' ', '<', 'L', 'A', 'S', 'T', '>', '?', ' '] /- 965: `* What step number, or FIRST, or LAST <LAST>? ` -/,
  ['*', ' ', 'W', 'i', 't', 'h', ' ', 'w', 'h', 'a', 't', ' ', 's', 't', 'a', 't', 'e', 'm', 'e', 'n', 't', ' ', 'l', 'a', 'b', 'e', 'l', '?', ' '] /- 967: `* With what statement label? ` -/,
  ['*', ' ', 'A', 's', 's', 'i', 'g', 'n', ' ', 'w', 'h', 'a', 't', ' ', 'v', 'a', 'r', 'i', 'a', 'b', 'l', 'e', ' ', '(', 'f', 'o', 'r', 'm', 'a', 't', ' ', '$', 'n', 'n', ')', '?', ' '] /- 995: `* Assign what variable (format $nn)? ` -/,
  ['*', ' ', 'W', 'i', 't', 'h', ' ', 'w', 'h', 'a', 't', ' ', 'm', 'a', 't', 'h', ' ', 's', 'y', 'm', 'b', 'o', 'l', ' ', 's', 't', 'r', 'i', 'n', 'g', '?', ' '] /- 998: `* With what math symbol string? ` -/,
  ['*', ' ', 'W', 'h', 'a', 't', ' ', 'i', 's', ' ', 't', 'h', 'e', ' ', 'n', 'a', 'm', 'e', ' ', 'o', 'f', ' ', 't', 'h', 'e', ' ', 'f', 'i', 'l', 'e', ' ', 't', 'o', ' ', 'd', 'i', 's', 'p', 'l', 'a', 'y', '?', ' '] /- 1164: `* What is the name of the file to display? ` -/,
  ['*', ' ', 'W', 'h', 'a', 't', ' ', 'i', 's', ' ', 't', 'h', 'e', ' ', 'd', 'e', 'b', 'u', 'g', 'g', 'i', 'n', 'g', ' ', 's', 't', 'r', 'i', 'n', 'g', '?', ' '] /- 1241: `* What is the debugging string? ` -/,
  ['*', ' ', 'W', 'h', 'a', 't', ' ', 'i', 's', ' ', 't', 'h', 'e', ' ', 'n', 'a', 'm', 'e', ' ', 'o', 'f', ' ', 't', 'h', 'e', ' ', 'i', 'n', 'p', 'u', 't', ' ', 'f', 'i', 'l', 'e', ' ', 'w', 'i', 't', 'h', ' ', 'm', 'a', 'r', 'k', 'u', 'p', '?', ' '] /- 1251: `* What is the name of the input file with markup? ` -/,
  ['*', ' ', 'W', 'h', 'a', 't', ' ', 'i', 's', ' ', 't', 'h', 'e', ' ', 'n', 'a', 'm', 'e', ' ', 'o', 'f', ' ', 't', 'h', 'e', ' ', 'H', 'T', 'M', 'L', ' ', 'o', 'u', 't', 'p', 'u', 't', ' ', 'f', 'i', 'l', 'e', '?', ' '] /- 1254: `* What is the name of the HTML output file? ` -/,
  ['*', ' ', 'S', 't', 'a', 't', 'e', 'm', 'e', 'n', 't', ' ', 'l', 'a', 'b', 'e', 'l', ' ', 't', 'o', ' ', 'c', 'r', 'e', 'a', 't', 'e', ' ', 'M', 'I', 'D', 'I', ' ', 'f', 'o', 'r', ' ', '(', '*', ' ', 'm', 'a', 't', 'c', 'h', 'e', 's', ' ', 'a', 'n', 'y', ' ', 's', 'u', 'b', 's', 't', 'r', 'i', 'n', 'g', ')', ' ', '<', '*', '>', '?'] /- 1282: `* Statement label to create MIDI for (* matches any substring) <*>?` -/,
  ['*', ' ', 'W', 'h', 'a', 't', ' ', 'i', 's', ' ', 't', 'h', 'e', ' ', 'p', 'a', 'r', 'a', 'm', 'e', 't', 'e', 'r', ' ', 's', 't', 'r', 'i', 'n', 'g', ' ', '<', 'F', 'S', 'H', '>', '?'] /- 1295: `* What is the parameter string <FSH>?` -/,
  ['*', ' ', 'S', 't', 'r', 'i', 'n', 'g', ' ', 't', 'o', ' ', 'a', 'd', 'd', ' ', 't', 'o', ' ', 'b', 'e', 'g', 'i', 'n', 'n', 'i', 'n', 'g', ' ', 'o', 'f', ' ', 'e', 'a', 'c', 'h', ' ', 'l', 'i', 'n', 'e', ' ', '<', '>', '?', ' '] /- 1348: `* String to add to beginning of each line <>? ` -/,
  ['*', ' ', 'S', 't', 'r', 'i', 'n', 'g', ' ', 't', 'o', ' ', 'a', 'd', 'd', ' ', 't', 'o', ' ', 'e', 'n', 'd', ' ', 'o', 'f', ' ', 'e', 'a', 'c', 'h', ' ', 'l', 'i', 'n', 'e', ' ', '<', '>', '?', ' '] /- 1350: `* String to add to end of each line <>? ` -/,
  ['*', ' ', 'S', 't', 'r', 'i', 'n', 'g', ' ', 't', 'o', ' ', 'm', 'a', 't', 'c', 'h', ' ', 't', 'o', ' ', 's', 't', 'a', 'r', 't', ' ', 'r', 'a', 'n', 'g', 'e', ' ', '(', 'n', 'u', 'l', 'l', ' ', '=', ' ', 'a', 'n', 'y', ' ', 'l', 'i', 'n', 'e', ')', ' ', '<', '>', '?', ' '] /- 1353: `* String to match to start range (null = any line) <>? ` -/,
  ['*', ' ', 'S', 't', 'r', 'i', 'n', 'g', ' ', 't', 'o', ' ', 'm', 'a', 't', 'c', 'h', ' ', 't', 'o', ' ', 'e', 'n', 'd', ' ', 'r', 'a', 'n', 'g', 'e', ' ', '(', 'n', 'u', 'l', 'l', ' ', '=', ' ', 'a', 'n', 'y', ' ', 'l', 'i', 'n', 'e', ')', ' ', '<', '>', '?', ' '] /- 1359: `* String to match to end range (null = any line) <>? ` -/,
  ['*', ' ', 'S', 't', 'r', 'i', 'n', 'g', ' ', 'f', 'r', 'o', 'm', ' ', 'w', 'h', 'i', 'c', 'h', ' ', 't', 'o', ' ', 's', 't', 'a', 'r', 't', ' ', 'd', 'e', 'l', 'e', 't', 'i', 'n', 'g', ' ', '(', 'C', 'R', ' ', '=', ' ', 'b', 'e', 'g', 'i', 'n', 'n', 'i', 'n', 'g', ' ', 'o', 'f', ' ', 'l', 'i', 'n', 'e', ')', ' ', '<', '>', '?', ' '] /- 1371: `* String from which to start deleting (CR = beginning of line) <>? ` -/,
  ['*', ' ', 'S', 't', 'r', 'i', 'n', 'g', ' ', 'a', 't', ' ', 'w', 'h', 'i', 'c', 'h', ' ', 't', 'o', ' ', 's', 't', 'o', 'p', ' ', 'd', 'e', 'l', 'e', 't', 'i', 'n', 'g', ' ', '(', 'C', 'R', ' ', '=', ' ', 'e', 'n', 'd', ' ', 'o', 'f', ' ', 'l', 'i', 'n', 'e', ')', ' ', '<', '>', '?', ' '] /- 1374: `* String at which to stop deleting (CR = end of line) <>? ` -/,
  ['*', ' ', 'S', 'u', 'b', 'c', 'o', 'm', 'm', 'a', 'n', 'd', '(', 's', ')', ' ', '(', 'D', ',', 'B', ',', 'E', ',', 'R', ',', 'Q', ',', 'T', ',', 'U', ',', 'P', ',', 'G', ',', 'C', ',', 'L', ',', 'V', ')', ' ', '<', 'B', ',', 'E', ',', 'R', '>', '?', ' '] /- 1382: `* Subcommand(s) (D,B,E,R,Q,T,U,P,G,C,L,V) <B,E,R>? ` -/,
  ['*', ' ', 'C', 'h', 'a', 'r', 'a', 'c', 't', 'e', 'r', ' ', 's', 't', 'r', 'i', 'n', 'g', ' ', 't', 'o', ' ', 'm', 'a', 't', 'c', 'h', ' ', 'b', 'e', 't', 'w', 'e', 'e', 'n', ' ', 't', 'h', 'e', ' ', 'h', 'a', 'l', 'v', 'e', 's', ' ', 't', 'o', ' ', 'b', 'e', ' ', 's', 'w', 'a', 'p', 'p', 'e', 'd', '?', ' '] /- 1390: `* Character string to match between the halves to be swapped? ` -/,
  ['*', ' ', 'S', 't', 'r', 'i', 'n', 'g', ' ', 't', 'o', ' ', 'r', 'e', 'p', 'l', 'a', 'c', 'e', '?', ' '] /- 1398: `* String to replace? ` -/,
  ['*', ' ', 'R', 'e', 'p', 'l', 'a', 'c', 'e', ' ', 'i', 't', ' ', 'w', 'i', 't', 'h', ' ', '<', '>', '?', ' '] /- 1400: `* Replace it with <>? ` -/,
  ['*', ' ', 'W', 'h', 'i', 'c', 'h', ' ', 'o', 'c', 'c', 'u', 'r', 'r', 'e', 'n', 'c', 'e', ' ', 'i', 'n', ' ', 't', 'h', 'e', ' ', 'l', 'i', 'n', 'e', ' ', '(', '1', ',', '2', ',', '.', '.', '.', ' ', 'o', 'r', ' ', 'A', 'L', 'L', ' ', 'o', 'r', ' ', 'E', 'A', 'C', 'H', ')', ' ', '<', '1', '>', '?', ' '] /- 1402: `* Which occurrence in the line (1,2,... or ALL or EACH) <1>? ` -/,
  ['*', ' ', 'A', 'd', 'd', 'i', 't', 'i', 'o', 'n', 'a', 'l', ' ', 'm', 'a', 't', 'c', 'h', ' ', 'r', 'e', 'q', 'u', 'i', 'r', 'e', 'd', ' ', 'o', 'n', ' ', 'l', 'i', 'n', 'e', ' ', '(', 'n', 'u', 'l', 'l', ' ', '=', ' ', 'm', 'a', 't', 'c', 'h', ' ', 'a', 'l', 'l', ')', ' ', '<', '>', '?', ' '] /- 1405: `* Additional match required on line (null = match all) <>? ` -/,
  ['*', ' ', 'S', 't', 'r', 'i', 'n', 'g', ' ', 't', 'o', ' ', 'i', 'n', 's', 'e', 'r', 't', ' ', 'i', 'n', ' ', 'e', 'a', 'c', 'h', ' ', 'l', 'i', 'n', 'e', ' ', '<', '!', '>', '?', ' '] /- 1414: `* String to insert in each line <!>? ` -/,
  ['*', ' ', 'S', 'p', 'e', 'c', 'i', 'a', 'l', ' ', 'c', 'h', 'a', 'r', 'a', 'c', 't', 'e', 'r', 's', ' ', 't', 'o', ' ', 'u', 's', 'e', ' ', 'a', 's', ' ', 't', 'o', 'k', 'e', 'n', ' ', 'd', 'e', 'l', 'i', 'm', 'i', 't', 'e', 'r', 's', ' ', '<', '(', ')', '[', ']', ',', '=', ':', ';', '{', '}', '>', '?', ' '] /- 1423: `* Special characters to use as token delimiters <()[],=:;{}>? ` -/,
  ['*', ' ', 'S', 't', 'r', 'i', 'n', 'g', ' ', 't', 'o', ' ', 'm', 'a', 't', 'c', 'h', ' ', 'o', 'n', ' ', 'e', 'a', 'c', 'h', ' ', 'l', 'i', 'n', 'e', ' ', '(', 'n', 'u', 'l', 'l', ' ', '=', ' ', 'a', 'n', 'y', ' ', 'n', 'o', 'n', '-', 'b', 'l', 'a', 'n', 'k', ' ', 'l', 'i', 'n', 'e', ')', ' ', '<', '>', '?', ' '] /- 1431: `* String to match on each line (null = any non-blank line) <>? ` -/,
  ['*', ' ', 'O', 'u', 't', 'p', 'u', 't', ' ', 't', 'h', 'o', 's', 'e', ' ', 'l', 'i', 'n', 'e', 's', ' ', 'c', 'o', 'n', 't', 'a', 'i', 'n', 'i', 'n', 'g', ' ', 't', 'h', 'e', ' ', 's', 't', 'r', 'i', 'n', 'g', ' ', '(', 'Y', ')', ' ', 'o', 'r', ' ', 't', 'h', 'o', 's', 'e', ' ', 'n', 'o', 't', ' ', '(', 'N', ')', ' ', '<', 'Y', '>', '?', ' '] /- 1434: `* Output those lines containing the string (Y) or those not (N) <Y>? ` -/,
  ['*', ' ', 'S', 't', 'r', 'i', 'n', 'g', ' ', 't', 'o', ' ', 's', 't', 'a', 'r', 't', ' ', 'k', 'e', 'y', ' ', 'o', 'n', ' ', 'e', 'a', 'c', 'h', ' ', 'l', 'i', 'n', 'e', ' ', '(', 'n', 'u', 'l', 'l', ' ', 's', 't', 'r', 'i', 'n', 'g', ' ', '=', ' ', 'c', 'o', 'l', 'u', 'm', 'n', ' ', '1', ')', ' ', '<', '>', '?', ' '] /- 1442: `* String to start key on each line (null string = column 1) <>? ` -/,
  ['*', ' ', 'S', 't', 'r', 'i', 'n', 'g', ' ', 't', 'o', ' ', 'c', 'o', 'u', 'n', 't', ' ', '<', ';', '>', '?', ' '] /- 1458: `* String to count <;>? ` -/,
  ['*', ' ', 'C', 'o', 'm', 'm', 'a', '-', 's', 'e', 'p', 'a', 'r', 'a', 't', 'e', 'd', ' ', 'l', 'i', 's', 't', ' ', 'o', 'f', ' ', 'i', 'n', 'p', 'u', 't', ' ', 'f', 'i', 'l', 'e', 's', '?', ' '] /- 1465: `* Comma-separated list of input files? ` -/,
  ['*', ' ', 'O', 'u', 't', 'p', 'u', 't', ' ', 'f', 'i', 'l', 'e', '?', ' '] /- 1467: `* Output file? ` -/,
  ['*', ' ', 'O', 'u', 't', 'p', 'u', 't', ' ', 'f', 'i', 'l', 'e', ' ', '<', 'n', '.', 't', 'm', 'p', '>', '?', ' '] /- 1473: `* Output file <n.tmp>? ` -/,
  ['*', ' ', 'N', 'u', 'm', '.', ' ', 'l', 'i', 'n', 'e', 's', ' ', 't', 'o', ' ', 't', 'y', 'p', 'e', ' ', 'o', 'r', ' ', 'A', 'L', 'L', ' ', '(', 'n', 'o', 't', 'h', 'i', 'n', 'g', ' ', '=', ' ', '1', '0', ')', ' ', '<', '$', '>', '?', ' '] /- 1486: `* Num. lines to type or ALL (nothing = 10) <$>? ` -/,
  ['*', ' ', 'S', 't', 'r', 'i', 'n', 'g', ' ', 't', 'o', ' ', 'i', 'n', 's', 'e', 'r', 't', ' ', 'b', 'e', 't', 'w', 'e', 'e', 'n', ' ', 't', 'h', 'e', ' ', '2', ' ', 'i', 'n', 'p', 'u', 't', ' ', 'l', 'i', 'n', 'e', 's', ' ', '<', '>', '?', ' '] /- 1522: `* String to insert between the 2 input lines <>? ` -/]

def saneKey (cmd : Str) : Bool :=
  (choices cmd).1.all (fun k => decide (k ≠ []) && (decide (k = nothingWord) || decide (editBase 32 k = k))) &&
    (!(choices cmd).1.contains nothingWord || decide (2 ≤ (choices cmd).1.length)) && (decide (unbracket (choices cmd).2 ≠ .val nothingWord) || decide ((choices cmd).1.getLastD [] = nothingWord))

theorem sane_of_key {cmd : Str} (h0 : cmd.head? ≠ some '*') (h : saneKey cmd = true) : Sane cmd := by
  simp only [saneKey, Bool.and_eq_true, List.all_eq_true, Bool.or_eq_true, decide_eq_true_eq, Bool.not_eq_true', List.contains_eq_mem, decide_eq_false_iff_not] at h
  obtain ⟨⟨h1, h2⟩, h3⟩ := h
  refine ⟨fun e => absurd e h0, fun _ _ _ => ⟨h1, fun e => ?_, fun e => ?_⟩⟩
  · rcases h2 with h2 | h2
    · exact absurd e h2
    · exact h2
  · rcases h3 with h3 | h3
    · exact absurd e h3
    · exact h3

def saneStar (cmd : Str) : Bool := decide ((defaultOf cmd >>= fun d => unbracket d >>= fun t => Out.val (decide (orWords cmd t = t))) ≠ .val false)

theorem sane_of_star {cmd : Str} (h0 : cmd.head? = some '*') (h : saneStar cmd = true) : Sane cmd := by
  refine ⟨fun _ d t e1 e2 => ?_, fun _ h => absurd h0 h⟩
  rw [saneStar, e1, Out.bind_val, e2, Out.bind_val] at h
  have h := of_decide_eq_true h
  exact Classical.byContradiction fun hn => h (by rw [decide_eq_false hn])

/-- A question for a number, or for a file. -/
theorem sane_other {cmd : Str} (h : cmd.head? = some '#' ∨ cmd.head? = some '&') : Sane cmd := by
  refine ⟨fun e => ?_, fun h1 _ h3 => absurd h (by rintro (h | h); exact h1 h; exact h3 h)⟩
  rw [e] at h
  simp at h

/-- A question that does not offer FIRST, LAST or ALL. -/
theorem sane_plain {cmd : Str} (h0 : cmd.head? = some '*') (h1 : instr 1 cmd " FIRST".toList = 0) (h2 : instr 1 cmd " LAST".toList = 0) (h3 : instr 1 cmd " ALL".toList = 0) : Sane cmd := by
  refine ⟨fun _ d t _ _ => ?_, fun _ h => absurd h0 h⟩
  unfold orWords
  rw [orWord, orWord, orWord, if_neg (fun h => h.2 h3), if_neg (fun h => h.2 h2), if_neg (fun h => h.2 h1)]

set_option maxRecDepth 100000 in
theorem keyLists_sane : ∀ c ∈ keyLists, Sane c := by
  intro c hc
  have : ∀ c ∈ keyLists, c.head? ≠ some '*' ∧ saneKey c = true := by decide +kernel
  exact sane_of_key (this c hc).1 (this c hc).2

set_option maxRecDepth 100000 in
theorem starLists_sane : ∀ c ∈ starLists, Sane c := by
  intro c hc
  have : ∀ c ∈ starLists, c.head? = some '*' ∧ saneStar c = true := by decide +kernel
  exact sane_of_star (this c hc).1 (this c hc).2

end MM.Cmdl
