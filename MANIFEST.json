{
 "claims": [
  {
   "property": "C01",
   "status": "proved",
   "theorems": [
    "MM.Veri.C01_step_is_substitution_instance"
   ],
   "note": "every assertion step of verifyProof; frames are those READ builds (goodRef_of_parse)"
  },
  {
   "property": "C02",
   "status": "proved",
   "theorems": [
    "MM.Veri.C02_cannot_unify_iff",
    "MM.Veri.C02_cannot_unify_unknown"
   ],
   "note": "iff for steps whose hypotheses are all known; with unknown ('?') hypotheses the known ones are treated exactly"
  },
  {
   "property": "C03",
   "status": "proved",
   "theorems": [
    "MM.Veri.C03_not_unique_iff",
    "MM.Veri.C03_never_ambiguous_with_f"
   ],
   "note": ""
  },
  {
   "property": "C04",
   "status": "proved",
   "theorems": [
    "MM.Veri.C04_matching_terminates",
    "MM.Veri.C04_step_terminates"
   ],
   "note": ""
  },
  {
   "property": "C05",
   "status": "partial",
   "theorems": [
    "MM.Veri.C05_step_safe_partial",
    "MM.Veri.C05_bug2110_reachable"
   ],
   "note": "false as stated: bug 2110 is reachable when a hypothesis step is unknown (C05_bug2110_reachable); proved: no out-of-range read and no other bug check fires, and 2110 only with an unknown hypothesis"
  },
  {
   "property": "C06",
   "status": "proved",
   "theorems": [
    "MM.Veri.C06_disjoint_violation_iff"
   ],
   "note": ""
  },
  {
   "property": "C07",
   "status": "proved",
   "theorems": [
    "MM.Proof.C07_accepted_is_derivable",
    "MM.Veri.C07_verified_is_derivable",
    "MM.Proof.C07_text_is_derivable"
   ],
   "note": "end to end: parseProof (normal and compressed format) followed by verifyProof on any database READ builds"
  },
  {
   "property": "C08",
   "status": "proved",
   "theorems": [
    "MM.Proof.C08_correct_is_accepted",
    "MM.Proof.C08_compressed_is_accepted",
    "MM.Veri.C08_correct_is_verified"
   ],
   "note": "end to end for normal-format proofs, for compressed proofs as text (when the section does not look like the output of the old compression, or no number has more than one digit; see C19 for the rest), and for verifyProof on any stored proof"
  },
  {
   "property": "C09",
   "status": "partial",
   "theorems": [
    "MM.Cmd.C09_success_partial",
    "MM.Cmd.C09_text_partial",
    "MM.Cmd.C09_success_after_error",
    "MM.Cmd.C09_success_after_wrong_formula"
   ],
   "note": "False as stated: a $d violation, an ambiguous unification and a proof of the wrong formula are reported but return code 0, so the success message is still printed (witnesses C09_success_after_error, C09_success_after_wrong_formula). Proved: when the message is printed, every $p of the session was parsed with return code 0 and verified with return code 0, and if no error message at all was printed then every $p is derivable."
  },
  {
   "property": "C10",
   "status": "proved",
   "theorems": [
    "MM.Proof.C10_unknown_step_is_flagged",
    "MM.Proof.C10_compressed_unknown_is_flagged",
    "MM.Cmd.C10_unproved_list"
   ],
   "note": "parser: a '?' step makes the returned code at least 1, in normal and compressed proofs; driver: the list of unproved statements"
  },
  {
   "property": "C11",
   "status": "proved",
   "theorems": [
    "MM.Proof.C11_cites_only_earlier",
    "MM.Proof.C11_acyclic",
    "MM.Proof.C11_text_cites_only_earlier"
   ],
   "note": "normal and compressed"
  },
  {
   "property": "C12",
   "status": "proved",
   "theorems": [
    "MM.Pars.C12_mandatory_hyps",
    "MM.Pars.C12_mandatory_vars"
   ],
   "note": ""
  },
  {
   "property": "C13",
   "status": "proved",
   "theorems": [
    "MM.Pars.C13_disjoint_pairs"
   ],
   "note": ""
  },
  {
   "property": "C14",
   "status": "proved",
   "theorems": [
    "MM.Pars.C14_block_leaves_no_trace"
   ],
   "note": ""
  },
  {
   "property": "C15",
   "status": "proved",
   "theorems": [
    "MM.Pars.C15_f_discipline"
   ],
   "note": ""
  },
  {
   "property": "C16",
   "status": "proved",
   "theorems": [
    "MM.Lex.C16_duplicates_reported"
   ],
   "note": "for any permutation sorted by strcmp order as the result of qsort"
  },
  {
   "property": "C17",
   "status": "proved",
   "theorems": [
    "MM.Data.C17_encoding_has_value",
    "MM.Data.C17_encoding_onto",
    "MM.Data.C17_encoding_length",
    "MM.Data.C17_uniquely_decodable",
    "MM.Data.C17_decoder_reads"
   ],
   "note": "mmdata.c encoding: value, onto, length reserved, unique decoding of a whole letter sequence, and the parser model's loop reads the number back (proof about MM.Proof.crun)."
  },
  {
   "property": "C18",
   "status": "proved",
   "theorems": [
    "MM.Data.C18_compressed_round_trip",
    "MM.Data.C18_round_trip_layout"
   ],
   "note": "Text of compressProof (both algorithms) parsed back by parseProofText: same steps, no message. C18_round_trip_layout for any layout of the same words; C18_compressed_round_trip unconditionally for at most 120 mandatory hypotheses (beyond, the heuristic of C19 may fire)."
  },
  {
   "property": "C19",
   "status": "partial",
   "theorems": [
    "MM.Data.C19_heuristic_harmless_partial",
    "MM.Data.C19_heuristic_corrupts"
   ],
   "note": "False in general: C19_heuristic_corrupts gives an accepted database with 141 hypotheses whose compressed proof the program misreads. Proved for statements with at most 120 mandatory hypotheses."
  },
  {
   "property": "C20",
   "status": "partial",
   "theorems": [
    "MM.Proof.C20_compressed_safe_partial",
    "MM.Proof.C20_empty_label_map",
    "MM.Proof.C20_stack_overflow",
    "MM.Proof.C20_index_overflow",
    "MM.Proof.C20_tiny_section"
   ],
   "note": "memory safety of the compressed proof parser proved when the work arrays have room for the hypotheses of any assertion, the label map is not empty and numbers have at most 25 digits; four witnesses show the real code is unsafe otherwise"
  },
  {
   "property": "C21",
   "status": "proved",
   "theorems": [
    "MM.Tree.C21_pack_keeps_meaning",
    "MM.Tree.C21_unpack_gives_meaning",
    "MM.Tree.C21_pack_unpack",
    "MM.Tree.C21_no_repeated_subproof",
    "MM.Tree.C21_save_read_back"
   ],
   "note": "Proof trees, a stack machine as the meaning of packed proofs; packing and unpacking are inverse, packing never lengthens and leaves no repeated subproof. C21_save_read_back: pack, compress to text, parse, unpack gives the same proof (at most 120 mandatory hypotheses, as in C18)."
  },
  {
   "property": "C22",
   "status": "partial",
   "theorems": [
    "MM.Proof.C22_parse_safe_partial",
    "MM.Proof.C22_double_colon_out_of_bounds",
    "MM.Proof.C22_trailing_colons_out_of_bounds",
    "MM.Proof.C22_repeated_label_out_of_bounds"
   ],
   "note": "false as stated (three witnesses of out-of-range access); proved for proofs without adjacent or trailing ':' and without repeated local labels"
  },
  {
   "property": "C23",
   "status": "proved",
   "theorems": [
    "MM.Lex.C23_math_tokens",
    "MM.Lex.C23_proof_tokens",
    "MM.Lex.C23_spacing_irrelevant"
   ],
   "note": "math sections, label sections and proof sections"
  },
  {
   "property": "C24",
   "status": "proved",
   "theorems": [
    "MM.Lex.C24_sections_partition_source",
    "MM.Lex.C24_sections_clean"
   ],
   "note": ""
  },
  {
   "property": "C25",
   "status": "partial",
   "theorems": [
    "MM.Vstr.C25_mid",
    "MM.Vstr.C25_seg",
    "MM.Vstr.C25_left",
    "MM.Vstr.C25_right",
    "MM.Vstr.C25_left_right",
    "MM.Vstr.C25_mid_out_of_bounds"
   ],
   "note": "slicing proved for left/right for all arguments; for mid/seg the result is the slice whenever the position is not beyond the end; otherwise the code reads outside the string (C25_mid_out_of_bounds), so the full property is false"
  },
  {
   "property": "C26",
   "status": "partial",
   "theorems": [
    "MM.Vstr.C26_instr",
    "MM.Vstr.C26_rinstr",
    "MM.Vstr.C26_instr_empty",
    "MM.Vstr.C26_rinstr_empty_never_ends"
   ],
   "note": "proved for every non-empty search string; instr with an empty one returns length+1, rinstr with an empty one never returns (C26_rinstr_empty_never_ends), so the full property is false for the empty search string"
  },
  {
   "property": "C27",
   "status": "proved",
   "theorems": [
    "MM.Vstr.C27_numEntries",
    "MM.Vstr.C27_entry",
    "MM.Vstr.C27_entryPosition",
    "MM.Vstr.C27_lookup",
    "MM.Vstr.C27_entry_lookup",
    "MM.Vstr.C27_lookup_comma"
   ],
   "note": ""
  },
  {
   "property": "C28",
   "status": "proved",
   "theorems": [
    "MM.Match.C28_label_matching",
    "MM.Match.C28_symbol_matching",
    "MM.Match.C28_list",
    "MM.Match.C28_star",
    "MM.Match.C28_range",
    "MM.Match.C28_star_in_string"
   ],
   "note": "labels contain no '*' (READ only allows letters, digits, - _ .); for a string with '*' in it the claim is false (C28_star_in_string)"
  },
  {
   "property": "C29",
   "status": "proved",
   "theorems": [
    "MM.Fatl.C29_unsigned_text",
    "MM.Fatl.C29_push_sequence",
    "MM.Fatl.C29_exit_at",
    "MM.Fatl.C29_ends_with_line_feed"
   ],
   "note": "src/mmfatl.c modelled function by function (buffer array, parser state, va_list as a typed list); texts are what Expands/shown/finish/location of Fatl/Spec.lean say for every buffer size; no out-of-bounds access"
  },
  {
   "property": "C30",
   "status": "proved",
   "theorems": [
    "MM.Data.C30_knapsack_optimal",
    "MM.Data.C30_worth_optimal",
    "MM.Data.C30_worthless_excluded",
    "MM.Data.C30_size_zero_not_selected"
   ],
   "note": "knapsack01 with positive sizes; for size 0 the worth is still optimal but the selection may miss items (witness)."
  },
  {
   "property": "C31",
   "status": "proved",
   "theorems": [
    "MM.Data.C31_labels_listed_once"
   ],
   "note": "Both algorithms; lines of at least one character for the new one."
  },
  {
   "property": "C32",
   "status": "proved",
   "theorems": [
    "MM.Date.C32_parse",
    "MM.Date.C32_compare",
    "MM.Date.C32_compare_empty",
    "MM.Date.C32_build",
    "MM.Date.C32_unknown_month_is_january"
   ],
   "note": "val/str are modelled for integers of at most 15 digits (exact in double arithmetic); the month text is not validated by the code: C32_unknown_month_is_january"
  },
  {
   "property": "C33",
   "status": "proved",
   "theorems": [
    "MM.Tree.C33_subproof_is_subtree",
    "MM.Tree.occurs_exists",
    "MM.Tree.occurs_unique"
   ],
   "note": "nmbrGetSubproofLen on every well-formed proof tree (with or without references); every step is the root of exactly one subtree."
  },
  {
   "property": "C34",
   "status": "proved",
   "theorems": [
    "MM.Tree.C34_indentation_is_depth",
    "MM.Tree.C34_essential_iff",
    "MM.Tree.C34_target_is_slot"
   ],
   "note": "Indentation, essential flags and target hypotheses for every step of every well-formed proof."
  },
  {
   "property": "C35",
   "status": "proved",
   "theorems": [
    "MM.Data.C35_union",
    "MM.Data.C35_intersection",
    "MM.Data.C35_setminus",
    "MM.Data.C35_extractVars"
   ],
   "note": "Token lists of integers."
  },
  {
   "property": "C36",
   "status": "partial",
   "theorems": [
    "MM.Vstr.C36_edit_plain",
    "MM.Vstr.C36_code2",
    "MM.Vstr.C36_code4",
    "MM.Vstr.C36_code8",
    "MM.Vstr.C36_code16",
    "MM.Vstr.C36_code32",
    "MM.Vstr.C36_code128",
    "MM.Vstr.C36_code8192",
    "MM.Vstr.C36_no_trailing",
    "MM.Vstr.C36_idempotent",
    "MM.Vstr.C36_untab_partial",
    "MM.Vstr.C36_untab_overflow",
    "MM.Vstr.C36_tab_overflow",
    "MM.Vstr.C36_tab_reads_before_buffer",
    "MM.Vstr.C36_tab_expands_back",
    "MM.Vstr.C36_codes_4_8_leave_leading_blank",
    "MM.Vstr.C36_quotes_not_protected"
   ],
   "note": "each code has its documented effect and is idempotent, except: untab (2048) only when the expansion fits the buffer (C36_untab_partial; C36_untab_overflow shows the heap overflow otherwise), tab (1024) overflows or reads before its buffer (C36_tab_overflow, C36_tab_reads_before_buffer), 4+8 together are not idempotent, 256 does not protect quotes from 16"
  },
  {
   "property": "C37",
   "status": "proved",
   "theorems": [
    "MM.Pars.C37_symbols_resolved",
    "MM.Pars.C37_active_names_unique"
   ],
   "note": ""
  },
  {
   "property": "C38",
   "status": "partial",
   "theorems": [
    "MM.Pars.C38_internal_error_needs_error_partial",
    "MM.Pars.C38_long_symbol_out_of_bounds",
    "MM.Pars.C38_bug1708_reachable"
   ],
   "note": "proved for sources with no symbol longer than every declared one; without that proviso the code reads outside symbolLenExists (C38_long_symbol_out_of_bounds). Bug 1708 is reachable after an error message (C38_bug1708_reachable)"
  },
  {
   "property": "C39",
   "status": "proved",
   "theorems": [
    "MM.Proof.C39_tokens_resolved",
    "MM.Proof.C39_compressed_resolved",
    "MM.Proof.C39_compressed_complete"
   ],
   "note": "normal format and compressed format"
  },
  {
   "property": "C40",
   "status": "proved",
   "theorems": [
    "MM.Proof.C40_parse_then_verify"
   ],
   "note": ""
  },
  {
   "property": "C41",
   "status": "proved",
   "theorems": [
    "MM.Pars.C41_read_accepts_exactly",
    "MM.Pars.exSrc_rules"
   ],
   "note": "ReadRules (Verif/Pars/ReadSpec.lean) states the rules by names, statement numbers and scopes only; parseStatements accepts exactly the sources obeying them. Labels are covered by C23/C24 (parseLabels is a separate pass); typing is required where an assertion uses the variable, as the code checks it."
  },
  {
   "property": "C42",
   "status": "proved",
   "theorems": [
    "MM.Lex.C42_read_stores_source"
   ],
   "note": "source text after include expansion; conversion of text to statements composed with parseStatements"
  },
  {
   "property": "C43",
   "status": "partial",
   "theorems": [
    "MM.Data.C43_compress_terminates_partial",
    "MM.Data.C43_long_label_never_ends",
    "MM.Data.C43_compress_may_not_end"
   ],
   "note": "False in general: a label longer than the line makes the loop endless (C43_long_label_never_ends, C43_compress_may_not_end). Proved when all labels fit."
  },
  {
   "property": "C44",
   "status": "proved",
   "theorems": [
    "MM.Data.C44_frequent_labels_short"
   ],
   "note": "New algorithm."
  },
  {
   "property": "C45",
   "status": "partial",
   "theorems": [
    "MM.Data.C45_render_safe_partial",
    "MM.Expl.C45_explicit_safe_partial",
    "MM.Data.C45_unknown_step_overflows",
    "MM.Data.C45_numeric_labels_overflow"
   ],
   "note": "nmbrCvtRToVString (normal, packed and explicit) stays within its buffer when no label is a numeral and, with unknown steps, labels have at most 100 characters; two witnesses show the real code overflows otherwise"
  },
  {
   "property": "C46",
   "status": "proved",
   "theorems": [
    "MM.Data.C46_normal_round_trip"
   ],
   "note": "the text written for any packed proof is parsed back to exactly that proof, with any layout of the words"
  },
  {
   "property": "C47",
   "status": "proved",
   "theorems": [
    "MM.Tree.C47_packing_keeps_verdict",
    "MM.Tree.C47_saved_proof_is_accepted"
   ],
   "note": "Verdict of verifyProof is the same for the packed and the normal proof (both directions); saved compressed text of an accepted proof parses and verifies without message (at most 120 mandatory hypotheses)."
  },
  {
   "property": "C48",
   "status": "proved",
   "theorems": [
    "MM.Unif.C48_unify_sound"
   ],
   "note": "all series of calls, any trial counts"
  },
  {
   "property": "C49",
   "status": "proved",
   "theorems": [
    "MM.Unif.C49_unify_ends",
    "MM.Unif.C49_unifyNext_ends",
    "MM.Unif.C49_unify_finite",
    "MM.Unif.C49_unify_no_timeout",
    "MM.Unif.Ex.C49_empty_ub"
   ],
   "note": "for proper schemes (Proper); witness C49_empty_ub shows that the condition on empty substitutions is needed"
  },
  {
   "property": "C50",
   "status": "proved",
   "theorems": [
    "MM.Unif.C50_match_complete",
    "MM.Unif.C50_passes_iff",
    "MM.Unif.Ex.C50_unify_not_complete",
    "MM.Unif.Ex.C50_empty_defect"
   ],
   "note": "matching; witnesses show that two schemes with unknowns are not complete, and a defect with empty substitutions"
  },
  {
   "property": "C51",
   "status": "proved",
   "theorems": [
    "MM.Trace.C51_trace_back",
    "MM.Trace.C51_trace_back_plain",
    "MM.Trace.C51_forbid_test",
    "MM.Trace.C51_sane_after_read"
   ],
   "note": "Sane is established after READ by C51_sane_after_read (given that parseProof ends normally, C39/C40/C20); the output text around the labels and / TREE, / COUNT_STEPS are not modelled"
  },
  {
   "property": "C52",
   "status": "partial",
   "theorems": [
    "MM.Trace.C52_usage_recursive",
    "MM.Trace.C52_usage_direct_hyp",
    "MM.Trace.C52_usage_direct_partial",
    "MM.Trace.C52_usage_direct_source",
    "MM.Trace.C52_usage_is_trace_back",
    "MM.Trace.Ex.C52_direct_misses"
   ],
   "note": "false of the code for / DIRECT: a comment between the parentheses of a compressed proof hides the label (witness Ex.C52_direct_misses); proved for / RECURSIVE, for hypotheses, and for / DIRECT without such comments"
  },
  {
   "property": "C53",
   "status": "proved",
   "theorems": [
    "MM.Pfas.C53_no_bug",
    "MM.Pfas.C53_undo_redo",
    "MM.Pfas.C53_exit_safe",
    "MM.Pfas.C53_undo_restores"
   ],
   "note": "processUndoStack with its static variables and array, and the commands that use it; the proof changing commands are arbitrary changes to a proper proof"
  },
  {
   "property": "C54",
   "status": "partial",
   "theorems": [
    "MM.Pfas.C54_congratulations_sound_partial",
    "MM.Pfas.C54_derivable_partial",
    "MM.Pfas.C54_verifies_partial",
    "MM.Pfas.C54_whole_statement_false"
   ],
   "note": "False of the code: after 'Could not simultaneously unify' was reported, INITIALIZE ALL copies sources over targets and UNIFY ALL congratulates on a wrong proof (C54_whole_statement_false). Proved when no such error was reported since all steps were initialised the last time. Unification functions are parameters with the contract Unifier.Ok."
  },
  {
   "property": "C55",
   "status": "proved",
   "theorems": [
    "MM.Pfas.C55_session_safe",
    "MM.Pfas.C55_start_safe",
    "MM.Pfas.C55_session_shape"
   ],
   "note": "All sessions; termination of automatic unification is not claimed (outcome fuel)."
  },
  {
   "property": "C56",
   "status": "partial",
   "theorems": [
    "MM.Unif.C56_first_ends",
    "MM.Unif.C56_next_ends",
    "MM.Unif.C56_answers",
    "MM.Unif.C56_complete",
    "MM.Unif.C56_none",
    "MM.Unif.C56_distinct",
    "MM.Unif.C56_unique",
    "MM.Unif.C56_unique_none",
    "MM.Unif.C56_unique_several_partial",
    "MM.Unif.C56_unique_ends",
    "MM.Unif.C56_unique_match",
    "MM.Unif.Ex.C56_several_false"
   ],
   "note": "Everything proved except that 3 means two different answers: that is false of the code (C56_several_false: the inner loop of hentyNormalize does not use its counter), and proved when only one side has unknown variables (C56_distinct, C56_unique_several_partial)."
  },
  {
   "property": "C57",
   "status": "proved",
   "theorems": [
    "MM.Pfas.C57_command_ends",
    "MM.Pfas.C57_start_ends",
    "MM.Pfas.C57_unifier_exists",
    "MM.Pfas.C57_bound_irrelevant",
    "MM.Pfas.C57_congratulations_sound"
   ],
   "note": "SET EMPTY_SUBSTITUTION off (the default) and the Henty filter on (the default); the unification parameter of the session model is tied to the modelled unifyH/uniqueUnif by Realises, which C57_unifier_exists shows satisfiable."
  },
  {
   "property": "C58",
   "status": "proved",
   "theorems": [
    "MM.Expd.C58_expand_one",
    "MM.Expd.C58_expand_command",
    "MM.Expd.C58_expanded_proof_is_correct",
    "MM.Expd.C58_dummy_becomes_unknown",
    "MM.Expd.C58_expand_in_session"
   ],
   "note": "No bound on the proof. Correctness of the result: the selected theorems must have correct stored proofs without dummy variables; C58_dummy_becomes_unknown shows that the proviso is needed (the code itself puts unknown steps for dummy variables, and says so). Patterns: the special label patterns (~ # @ = %) are excluded."
  },
  {
   "property": "C59",
   "status": "proved",
   "theorems": [
    "MM.File.C59_crash",
    "MM.File.C59_versions",
    "MM.File.C59_new_file",
    "MM.File.C59_delete",
    "MM.File.C59_only_the_file",
    "MM.File.C59_history",
    "MM.File.C59_rename",
    "MM.File.C59_rename_versions",
    "MM.File.C59_remove_retries",
    "MM.File.C59_tmp_name",
    "MM.File.Example.C59_failing_rename_loses_the_file",
    "MM.File.Example.C59_failing_rename_loses_a_version",
    "MM.File.Example.C59_needs_rename"
   ],
   "note": "Directories as maps, all crash points recorded, an environment that lets calls fail; witnesses that a refused rename (whose result the code ignores) loses the file."
  },
  {
   "property": "C60",
   "status": "proved",
   "theorems": [
    "MM.Write.C60_write_is_source",
    "MM.Write.C60_saved_source",
    "MM.Write.C60_witness_contributor"
   ],
   "note": "WRITE SOURCE of the unchanged source, and after any history of SAVE PROOF; the note must not contain a dollar sign (witness)."
  },
  {
   "property": "C61",
   "status": "proved",
   "theorems": [
    "MM.Long.C61_wrapped",
    "MM.Long.C61_words",
    "MM.Long.C61_characters",
    "MM.Long.C61_width",
    "MM.Long.C61_quotes",
    "MM.Long.C61_code",
    "MM.Long.C61_witness_width_4",
    "MM.Long.C61_witness_width_3",
    "MM.Long.C61_normal"
   ],
   "note": "printLongLine against the relation Wrapped; words, characters, widths, quotes, compressed proofs; witnesses for widths 3 and 4"
  },
  {
   "property": "C62",
   "status": "partial",
   "theorems": [
    "MM.Save.C62_normal",
    "MM.Save.C62_compressed_partial",
    "MM.Save.C62_witness_wrap"
   ],
   "note": "Normal and packed format: proved (C62_normal). Compressed format: proved on the condition NotTakenForOld (the heuristic for the obsolete algorithm does not fire or makes no difference); C62_witness_wrap shows that the English claim is false without it: when every UU is broken at a line end the saved proof is read as a different one."
  },
  {
   "property": "C63",
   "status": "partial",
   "theorems": [
    "MM.Incl.C63_included_partial",
    "MM.Incl.C63_accepted_partial",
    "MM.Incl.C63_read_partial",
    "MM.Incl.main_included",
    "MM.Incl.empty_file",
    "MM.Incl.markup_swallows",
    "MM.Incl.block_nested"
   ],
   "note": "English property false: a reference to the main file stops with bug(1765), an empty file is read out of bounds, the program's own markup comments change the meaning (main_included, empty_file, markup_swallows, block_nested). Proved in both directions for non-empty plain files without that markup that do not include the main file."
  },
  {
   "property": "C64",
   "status": "proved",
   "theorems": [
    "MM.Incl.C64_inclusion_ends"
   ],
   "note": "For finitely many files with arbitrary contents."
  },
  {
   "property": "C65",
   "status": "partial",
   "theorems": [
    "MM.Incl.C65_read_again_partial",
    "MM.Incl.prefix_names"
   ],
   "note": "False when a file name is the beginning of another one (prefix_names); proved for ASCII files whose names are not, under the hypotheses of C63."
  },
  {
   "property": "C66",
   "status": "proved",
   "theorems": [
    "MM.Count.C66_add",
    "MM.Count.C66_sub",
    "MM.Count.C66_sub_negative",
    "MM.Count.C66_add_example",
    "MM.Count.C66_sub_example"
   ],
   "note": "Value of the result, digits only, no leading zeros; C66_sub_negative shows what happens outside the range."
  },
  {
   "property": "C67",
   "status": "partial",
   "theorems": [
    "MM.Count.C67_count_partial",
    "MM.Count.C67_sane_after_read",
    "MM.Count.Ex.C67_example",
    "MM.Count.Ex.C67_hypothesis_twice",
    "MM.Count.Ex.C67_compressed",
    "MM.Count.Ex.C67_internal_error",
    "MM.Count.Ex.C67_after_read_example"
   ],
   "note": "Proved for proofs saved in normal format when every theorem used uses each of its hypotheses exactly once; otherwise the number of expanded steps is wrong or the program stops with bug(264) (witnesses)."
  },
  {
   "property": "C68",
   "status": "proved",
   "theorems": [
    "MM.Expl.C68_explicit_means",
    "MM.Expl.C68_explicit_accepted",
    "MM.Expl.C68_any_text_is_derivable",
    "MM.Expl.C68_any_text_cites_earlier",
    "MM.Expl.C68_order_keeps_verdict",
    "MM.Expl.C68_without_targets"
   ],
   "note": "Any accepted text of the form label* target = step \u2026; the parsed proof (with the reference renumbering and the loop that moves subproofs) stands for the proof that selects subproofs by target. Also soundness of any text (with or without targets) that is parsed without a message, and termination of the loop."
  },
  {
   "property": "C69",
   "status": "proved",
   "theorems": [
    "MM.Expl.C69_explicit_round_trip",
    "MM.Expl.C69_targets_written"
   ],
   "note": "for all complete normal or packed proofs of an accepted source; labels consist of label characters (as READ demands)"
  },
  {
   "property": "C70",
   "status": "partial",
   "theorems": [
    "MM.Fmt.C70_format_keeps_database_partial",
    "MM.Fmt.C70_witness_comment_cut",
    "MM.Fmt.C70_witness_comment_lost",
    "MM.Fmt.C70_witness_label_twice"
   ],
   "note": "for sources laid out as Laid says (a comment does not end on the line of a $e/$f label, the description directly precedes the label of a $a/$p, tabs as in C36); witnesses show that the unrestricted claim is false of the code"
  },
  {
   "property": "C71",
   "status": "partial",
   "theorems": [
    "MM.Fmt.C71_rewrap_keeps_database_partial",
    "MM.Fmt.C71_witness_bug"
   ],
   "note": "For sources laid out as Laid says (as C70). The alternative is the stop with bug 1730 (witness C71_witness_bug: a comment that ends with an empty line); otherwise all is proved."
  },
  {
   "property": "C72",
   "status": "partial",
   "theorems": [
    "MM.Extr.C72_extract_selects",
    "MM.Extr.C72_extract_reads_back_partial",
    "MM.Extr.C72_extract_readable",
    "MM.Extr.C72_db_after_read",
    "MM.Extr.Ex.C72_axiom_loses_variable"
   ],
   "note": "C72_extract_selects is what is written. C72_extract_reads_back_partial: READ accepts the extract if and only if the variables of the $d statements extracted are declared by statements extracted; then the frames are the same. C72_extract_readable: a sufficient condition on the $a statements wanted. Witness that the condition can fail: C72_axiom_loses_variable. C72_db_after_read: the hypothesis DbOk holds after READ."
  },
  {
   "property": "C73",
   "status": "partial",
   "theorems": [
    "MM.Extr.C73_extract_verifies_partial",
    "MM.Extr.Ex.C73_unused_label_lost"
   ],
   "note": "For normal proofs in full; for compressed proofs provided that every label listed is used and the text does not look like that of the old compression algorithm. Without the first proviso it is false (C73_unused_label_lost). The section is assumed to consist of the source characters, with comments as in C23."
  },
  {
   "property": "C74",
   "status": "partial",
   "theorems": [
    "MM.Impr.C74_search_sound_partial",
    "MM.Impr.C74_no_distinct_partial",
    "MM.Impr.C74_found_inserts_partial",
    "MM.Impr.C74_search_ends",
    "MM.Impr.C74_quick_filter",
    "MM.Impr.Ex.C74_stale_subproof"
   ],
   "note": "Soundness needs the known steps of the current proof to be unified with their targets (no such assumption without a current proof); false otherwise: witness C74_stale_subproof. Termination, safety and the quick filter hold without it. Messages are not modelled."
  },
  {
   "property": "C75",
   "status": "partial",
   "theorems": [
    "MM.Repl.C75_replace_sound_partial",
    "MM.Repl.C75_minimize_state_partial",
    "MM.Repl.C75_minimize_sound_partial",
    "MM.Repl.C75_minimize_shorter_partial",
    "MM.Repl.C75_minimize_idempotent",
    "MM.Repl.C75_no_separator",
    "MM.Repl.C75_minimize_ends_partial"
   ],
   "note": "Conditions: the known steps are unified with their targets before, SET EMPTY_SUBSTITUTION off, no error reported by assignKnownSteps; but for disjoint variables (the command checks them separately). Termination (C75_minimize_ends_partial) is for runs without / MAY_GROW and with the unification functions of mmunif.c; it allows that one of the insertions reports that the steps cannot be unified."
  },
  {
   "property": "C76",
   "status": "proved",
   "theorems": [
    "MM.Cmdl.C76_arguments",
    "MM.Cmdl.C76_comment",
    "MM.Cmdl.C76_ends",
    "MM.Cmdl.C76_quotes",
    "MM.Cmdl.C76_columns"
   ],
   "note": "parseCommandLine for lines without NUL; the specification is the grammar Reads."
  },
  {
   "property": "C77",
   "status": "partial",
   "theorems": [
    "MM.Cmdl.C77_accepted",
    "MM.Cmdl.C77_expected",
    "MM.Cmdl.C77_ambiguous",
    "MM.Cmdl.C77_outcomes",
    "MM.Cmdl.C77_nothing",
    "MM.Cmdl.C77_question",
    "MM.Cmdl.C77_number",
    "MM.Cmdl.C77_only_numbers_partial",
    "MM.Cmdl.C77_negative_accepted"
   ],
   "note": "That only numbers are accepted is shown with a minus sign allowed (C77_only_numbers_partial); C77_negative_accepted shows that it is. Prompts and error texts are not modelled (which error it is, and the keywords it names, are)."
  },
  {
   "property": "C78",
   "status": "partial",
   "theorems": [
    "MM.Cmdl.C78_full_form_partial",
    "MM.Cmdl.C78_all_words",
    "MM.Cmdl.C78_matches",
    "MM.Cmdl.C78_switch",
    "MM.Cmdl.C78_nothing_answer",
    "MM.Cmdl.keyLists_sane",
    "MM.Cmdl.starLists_sane",
    "MM.Cmdl.C78_contributor",
    "MM.Cmdl.C78_quoted_switch"
   ],
   "note": "The tree of commands is a parameter; its lists of choices are those of the program (keyLists_sane, starLists_sane). Excluded: the user answers a question with the word nothing (C78_nothing_answer is the counterexample)."
  },
  {
   "property": "C79",
   "status": "proved",
   "theorems": [
    "MM.Tools.C79_read",
    "MM.Tools.C79_file",
    "MM.Tools.C79_nul"
   ],
   "note": "for files without NUL; C79_nul is a defect"
  },
  {
   "property": "C80",
   "status": "proved",
   "theorems": [
    "MM.Tools.C80_each",
    "MM.Tools.C80_delete",
    "MM.Tools.C80_delete_overlap",
    "MM.Tools.C80_swap",
    "MM.Tools.C80_insert",
    "MM.Tools.C80_match",
    "MM.Tools.C80_right",
    "MM.Tools.C80_clean"
   ],
   "note": "C80_delete_overlap is a finding"
  },
  {
   "property": "C81",
   "status": "proved",
   "theorems": [
    "MM.Tools.C81_substitute",
    "MM.Tools.C81_join",
    "MM.Tools.C81_multiline",
    "MM.Tools.C81_empty_line_lost",
    "MM.Tools.C81_tag"
   ],
   "note": "a string with \\n for files without empty lines: C81_empty_line_lost shows that the claim is false with them"
  },
  {
   "property": "C82",
   "status": "proved",
   "theorems": [
    "MM.Tools.C82_break",
    "MM.Tools.C82_build",
    "MM.Tools.C82_roundtrip"
   ],
   "note": ""
  },
  {
   "property": "C83",
   "status": "proved",
   "theorems": [
    "MM.Tools.C83_sort",
    "MM.Tools.C83_sort_unique",
    "MM.Tools.C83_unduplicate",
    "MM.Tools.C83_duplicate",
    "MM.Tools.C83_unique",
    "MM.Tools.C83_difference",
    "MM.Tools.C83_reverse"
   ],
   "note": "for every result qsort may give"
  },
  {
   "property": "C84",
   "status": "proved",
   "theorems": [
    "MM.Tools.C84_parallel",
    "MM.Tools.C84_number",
    "MM.Tools.C84_number_digits",
    "MM.Tools.C84_number_endless",
    "MM.Tools.C84_count",
    "MM.Tools.C84_count_endless",
    "MM.Tools.C84_substitute_endless",
    "MM.Tools.C84_copy"
   ],
   "note": "for a non-empty string and a positive increment; the endless theorems are defects"
  },
  {
   "property": "C85",
   "status": "proved",
   "theorems": [
    "MM.Pool.C85_pool_no_ub",
    "MM.Pool.C85_pool_no_leak",
    "MM.Pool.C85_pool_count",
    "MM.Pool.C85_pool_malloc",
    "MM.Pool.C85_pool_fixed",
    "MM.Pool.C85_pool_free",
    "MM.Pool.C85_pool_purge"
   ],
   "note": "All histories of poolMalloc, poolFixedMalloc, poolFree, resizing, nmbrZapLen and memFreePoolPurge; malloc is any function keeping its promise."
  },
  {
   "property": "C86",
   "status": "proved",
   "theorems": [
    "MM.Pool.C86_nmbrLet",
    "MM.Pool.C86_nmbr_no_leak"
   ],
   "note": "For every sequence of statements from the start of the program, with any nesting of g_nmbrStartTempAllocStack."
  },
  {
   "property": "C87",
   "status": "proved",
   "theorems": [
    "MM.Let.C87_let",
    "MM.Let.C87_let_succeeds",
    "MM.Let.C87_no_leak",
    "MM.Let.C87_own_part"
   ],
   "note": "For every sequence of statements from the start of the program.  strcpy of a string to itself is taken as harmless."
  },
  {
   "property": "C88",
   "status": "proved",
   "theorems": [
    "MM.Step.C88_step_sound",
    "MM.Step.C88_step_total",
    "MM.Step.C88_actual",
    "MM.Step.C88_signed",
    "MM.Step.C88_words",
    "MM.Step.C88_relative_numbers",
    "MM.Step.C88_round_trip",
    "MM.Step.C88_in_proof"
   ],
   "note": "every text of at most 15 characters without a decimal point; the essential-step flags are those of C34"
  },
  {
   "property": "C89",
   "status": "proved",
   "theorems": [
    "MM.Step.C89_statement",
    "MM.Step.C89_sound",
    "MM.Step.C89_messages",
    "MM.Step.C89_bug247"
   ],
   "note": "Fits says what matchesList answers for each label (C28 tells when it answers); the wording of messages for uniqueFlag = 0 is modelled but nothing is stated about it"
  },
  {
   "property": "C90",
   "status": "partial",
   "theorems": [
    "MM.Byrep.C90_steps_offered",
    "MM.Byrep.C90_known_subproofs",
    "MM.Byrep.C90_improve2_sound_partial",
    "MM.Byrep.C90_no_distinct_partial",
    "MM.Byrep.C90_found_inserts",
    "MM.Byrep.C90_permitted",
    "MM.Byrep.C90_improve2_ends",
    "MM.Byrep.C90_in_order"
   ],
   "note": "Correct but for the $d conditions, which the code does not check here; with NO_DISTINCT and a proof without $d requirements, correct (C90_no_distinct_partial). For searchMethod 0 (IMPROVE / 2) and a step whose target has no dummy variable. Under the setting of C75 (unification functions of mmunif.c, EMPTY_SUBSTITUTION off)."
  },
  {
   "property": "C91",
   "status": "partial",
   "theorems": [
    "MM.Improve.C91_all_partial",
    "MM.Improve.C91_all_fewer_partial",
    "MM.Improve.C91_all_complete_partial",
    "MM.Improve.C91_step_partial",
    "MM.Improve.C91_all_ends_partial",
    "MM.Improve.C91_all_tried",
    "MM.Improve.C91_step_tried",
    "MM.Improve.C91_step_ends_partial"
   ],
   "note": "For IMPROVE / 1 and / 2 (with / 2, steps with isolated dummy variables are left out). Correct but for the $d conditions, which the code does not check here; nothing is claimed after a reported unification error. Setting of C75."
  },
  {
   "property": "C92",
   "status": "proved",
   "theorems": [
    "MM.Iso.C92_parent_step",
    "MM.Iso.C92_parent_iff",
    "MM.Iso.C92_isolation",
    "MM.Iso.C92_isolated_iff",
    "MM.Iso.Ex.C92_isolated_may_occur_elsewhere"
   ],
   "note": "For every state of a session (C55), also after a reported unification error. Trusted as in C55: the unification functions as an oracle with C48/C50's properties."
  },
  {
   "property": "C93",
   "status": "proved",
   "theorems": [
    "MM.Mark.C93_comment",
    "MM.Mark.C93_flag",
    "MM.Mark.Ex.C93_line_break_at_margin"
   ],
   "note": "getMarkupFlag with its cache, getDescription; the markup strings have their defaults; the comments do not change between READ and ERASE. Finding: a line break at the left margin hides the phrase"
  }
 ]
}