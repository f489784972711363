{
 "claims": [
  {
   "property": "C01",
   "status": "partial",
   "theorems": [
    "Verif.UnicodeSets.C01_roundtrip_partial",
    "Verif.UnicodeSets.C01_blank_violated",
    "Verif.UnicodeSets.C01_backslash_violated",
    "Verif.UnicodeSets.C01_backslash_hex_violated",
    "Verif.UnicodeSets.C01_backslash_bracket_violated",
    "Verif.UnicodeSets.C01_blanks",
    "Verif.UnicodeSets.C01_exactly",
    "Verif.UnicodeSets.C01_backslash_all_violated"
   ],
   "note": "Of the lists of non-empty strings without backslashes exactly those without blanks come back as they were (C01_exactly); with blanks the strings come back without them, a lone blank not at all (C01_blanks). Missing: strings with a backslash, which the code can lose, with witnesses. For every string of plain characters that ends in a backslash reading raises: C01_backslash_all_violated."
  },
  {
   "property": "C02",
   "status": "proved",
   "theorems": [
    "Verif.UnicodeSets.C02_parse_terminates",
    "Verif.UnicodeSets.C02_item_progress"
   ],
   "note": ""
  },
  {
   "property": "C03",
   "status": "proved",
   "theorems": [
    "Verif.UnicodeSets.C03_range",
    "Verif.UnicodeSets.C03_plain_class"
   ],
   "note": ""
  },
  {
   "property": "C04",
   "status": "partial",
   "theorems": [
    "Verif.UnicodeSets.C04_flatten_partial",
    "Verif.UnicodeSets.C04_first_violated",
    "Verif.UnicodeSets.C04_literal_violated",
    "Verif.UnicodeSets.C04_single_all_violated"
   ],
   "note": "flatten yields each choice exactly once except the first one, which the code skips; witness. Nothing is yielded for any text with one combination: C04_single_all_violated."
  },
  {
   "property": "C05",
   "status": "proved",
   "theorems": [
    "Verif.UnicodeSets.C05_hex_roundtrip",
    "Verif.UnicodeSets.C05_hex_form"
   ],
   "note": ""
  },
  {
   "property": "C06",
   "status": "partial",
   "theorems": [
    "Verif.Collation.C06_unescape_escape_partial",
    "Verif.Collation.C06_hex_partial",
    "Verif.Collation.C06_lowercase_violated",
    "Verif.Collation.C06_count_violated",
    "Verif.Collation.C06_literal_violated",
    "Verif.Collation.C06_none",
    "Verif.Collation.C06_readback",
    "Verif.Collation.C06_exactly",
    "Verif.Collation.C06_exactly_plain"
   ],
   "note": "Without allchars the round trip holds just for the texts that have no hex escape in them (C06_exactly_plain). With allchars and no backslashes: C06_readback says what comes back and C06_exactly when it is the text. Missing: allchars for texts with both marks and backslashes."
  },
  {
   "property": "C07",
   "status": "proved",
   "theorems": [
    "Verif.Collation.C07_lt_is_level_order",
    "Verif.Collation.C07_strict_weak_order",
    "Verif.Collation.C07_sorted_unique",
    "Verif.Collation.trims_spec"
   ],
   "note": ""
  },
  {
   "property": "C08",
   "status": "partial",
   "theorems": [
    "Verif.Collation.C08_operators_partial",
    "Verif.Collation.C08_self_violated",
    "Verif.Collation.C08_cmpKey_diffLevel",
    "Verif.Collation.trims_spec"
   ],
   "note": "The order operators agree with the weights; a key is not equal to itself (cmp gives 4): witness."
  },
  {
   "property": "C09",
   "status": "partial",
   "theorems": [
    "Verif.Collation.C09_greedy",
    "Verif.Collation.C09_covers_partial",
    "Verif.Collation.C09_truncated_violated",
    "Verif.Collation.C09_pieceKey"
   ],
   "note": "The key stops at the first unknown character: witness."
  },
  {
   "property": "C10",
   "status": "partial",
   "theorems": [
    "Verif.Collation.C10_parse_partial",
    "Verif.Collation.C10_parse_keeps",
    "Verif.Collation.C10_comment",
    "Verif.Collation.C10_operator_violated",
    "Verif.Collation.C10_ampersand_violated",
    "Verif.Collation.C10_operator_all_violated"
   ],
   "note": "All layouts of blanks and line ends. Proved for tailorings whose strings hold no operator characters; escaped operators are misread: no string with one is ever tailored, in any text without \\u codes."
  },
  {
   "property": "C11",
   "status": "proved",
   "theorems": [
    "Verif.Collation.C11_itemise_lossless",
    "Verif.Collation.C11_itemise_known",
    "Verif.Collation.C11_itemise_maximal"
   ],
   "note": ""
  },
  {
   "property": "C12",
   "status": "partial",
   "theorems": [
    "Verif.Collation.C12_whole",
    "Verif.Collation.C12_exact_partial",
    "Verif.Collation.C12_only_removes",
    "Verif.Collation.C12_kept",
    "Verif.Collation.C12_special",
    "Verif.Collation.C12_untouched",
    "Verif.Collation.C12_changed_violated"
   ],
   "note": "C12_whole: with the _setSortKeys that comes first, every remaining entry is one of the collation, in the same order, with its base split and the expansion of its base handed on to it, and this is exactly described; C12_exact_partial: nothing else happens in a tailoring without expansions. C12_kept, C12_special, C12_untouched: which ones remain. Refuted: an entry that follows one with an expansion is changed (`&ae << æ <<< Æ`). difflib and sorted are parameters."
  },
  {
   "property": "C13",
   "status": "partial",
   "theorems": [
    "Verif.Collation.C13_readDucet_partial",
    "Verif.Collation.C13_five_digits_violated",
    "Verif.Collation.C13_five_digits_ducet_violated",
    "Verif.Collation.C13_directive_violated",
    "Verif.Collation.C13_readDucet2_partial",
    "Verif.Collation.C13_comment_violated",
    "Verif.Collation.C13_cut",
    "Verif.Collation.C13_long_violated"
   ],
   "note": "Both readers (ducet.py and collation.py). Proved for keys with four-digit code points, with comments and directives between the entries. With longer code points each is cut to its first four digits (C13_cut), so no string with a character beyond U+FFFF has an entry (C13_long_violated). Directives and comments with a semicolon are read as entries: witnesses."
  },
  {
   "property": "C14",
   "status": "proved",
   "theorems": [
    "Verif.Xml.C14_attrib_lossless",
    "Verif.Xml.C14_attrib_safe",
    "Verif.Xml.C14_text_lossless",
    "Verif.Xml.C14_text_safe"
   ],
   "note": ""
  },
  {
   "property": "C15",
   "status": "partial",
   "theorems": [
    "Verif.Xml.C15_read_back_partial",
    "Verif.Xml.C15_attr_newline_violated",
    "Verif.Xml.C15_unregistered_violated",
    "Verif.Xml.C15_default_namespace_violated",
    "Verif.Xml.C15_control_violated",
    "Verif.Xml.C15_mixed_violated",
    "Verif.Xml.C15_cdata_violated",
    "Verif.Xml.C15_mixed_all_violated",
    "Verif.Xml.C15_mixed_read_partial",
    "Verif.Xml.C15_control_all_violated"
   ],
   "note": "Proved from the characters written, through a specification of XML, the tree builder and the loader, for all documents with registered names and values that XML and the loader keep. The rest is violated: witnesses, and for all elements with text beside children, which is lost while all else is read back. The sorting of children on reading is the subject of C24. No document with a character that XML does not have, in a comment or the text of an element without children, is read back (C15_control_all_violated)."
  },
  {
   "property": "C16",
   "status": "partial",
   "theorems": [
    "Verif.Xml.C16_history_partial",
    "Verif.Xml.C16_topns_violated",
    "Verif.Xml.C16_unregistered_violated",
    "Verif.Xml.C16_low_partial",
    "Verif.Xml.C16_again_all_violated"
   ],
   "note": "Proved for documents all of whose names are in registered namespaces, saved with topns (the default). For the rest the code violates it: witnesses. Without topns every document with an element in a namespace just below a plain root is saved differently once it has been saved in the process, whatever else was saved (C16_again_all_violated)."
  },
  {
   "property": "C17",
   "status": "proved",
   "theorems": [
    "Verif.Xml.C17_translate",
    "Verif.Xml.C17_there_and_back",
    "Verif.Xml.C17_back_and_there",
    "Verif.Xml.C17_registered"
   ],
   "note": ""
  },
  {
   "property": "C18",
   "status": "proved",
   "theorems": [
    "Verif.Ldml.C18_same",
    "Verif.Ldml.C18_change",
    "Verif.Ldml.C18_markings",
    "Verif.Ldml.C18_hidden",
    "Verif.Ldml.C18_key"
   ],
   "note": " C18_key: the hash for matching depends on the tag and the distinguishing attributes only."
  },
  {
   "property": "C19",
   "status": "partial",
   "theorems": [
    "Verif.Ldml.C19_scale",
    "Verif.Ldml.C19_total_partial",
    "Verif.Ldml.C19_total_violated",
    "Verif.Ldml.C19_default_violated"
   ],
   "note": "A document default that is not a draft name raises, exactly for the values without a draft; else total."
  },
  {
   "property": "C20",
   "status": "partial",
   "theorems": [
    "Verif.Ldml.C20_front_partial",
    "Verif.Ldml.C20_names_partial",
    "Verif.Ldml.C20_one_name_partial",
    "Verif.Ldml.C20_names_violated",
    "Verif.Ldml.C20_front_violated",
    "Verif.Ldml.C20_text_violated",
    "Verif.Ldml.C20_unrated",
    "Verif.Ldml.C20_front_all_violated",
    "Verif.Ldml.C20_text_all_violated"
   ],
   "note": "Front: proved if each value says its draft. Names: a value that has been in front loses its name and may be overwritten: witness. For all values: one without a draft stays in front of every one with a draft (C20_front_all_violated), and every text added under a name with a better value overwrites it (C20_text_all_violated)."
  },
  {
   "property": "C21",
   "status": "partial",
   "theorems": [
    "Verif.Ldml.C21_best",
    "Verif.Ldml.C21_change_draft",
    "Verif.Ldml.C21_keeps_partial",
    "Verif.Ldml.C21_keeps_violated",
    "Verif.Ldml.C21_keeps_all_violated",
    "Verif.Ldml.C21_name"
   ],
   "note": "The reported best is best, and change_draft leaves nothing better behind: full. That no value is lost is violated when 'proposed' is taken: witness. Whenever the name for the displaced value belongs to another alternate there is one value less: C21_keeps_all_violated."
  },
  {
   "property": "C22",
   "status": "partial",
   "theorems": [
    "Verif.Ldml.C22_found_partial",
    "Verif.Ldml.C22_idempotent_partial",
    "Verif.Ldml.C22_unchanged_partial",
    "Verif.Ldml.C22_text_partial",
    "Verif.Ldml.C22_found_violated",
    "Verif.Ldml.C22_found_draft_violated",
    "Verif.Ldml.C22_text_on_the_way",
    "Verif.Ldml.C22_before_violated",
    "Verif.Ldml.C22_beside_partial",
    "Verif.Ldml.C22_before_any_violated"
   ],
   "note": "Proved for steps whose predicates name each attribute once, not the draft if one is given, and only distinguishing attributes if drafts are used; else violated: witnesses. With a text: without drafts. The argument before has its effect on an element that is added beside others, and none on elements that are made because the path leads nowhere."
  },
  {
   "property": "C23",
   "status": "proved",
   "theorems": [
    "Verif.Ldml.C23_exact",
    "Verif.Ldml.C23_gone",
    "Verif.Ldml.C23_absent",
    "Verif.Ldml.C23_step"
   ],
   "note": "The path must have a step other than '.', since the root has no parent to be removed from."
  },
  {
   "property": "C24",
   "status": "partial",
   "theorems": [
    "Verif.Ldml.C24_sorted",
    "Verif.Ldml.C24_order",
    "Verif.Ldml.C24_keeps",
    "Verif.Ldml.C24_idempotent",
    "Verif.Ldml.C24_idempotent_drafts_partial",
    "Verif.Ldml.C24_drafts",
    "Verif.Ldml.C24_one",
    "Verif.Ldml.C24_keeps_drafts",
    "Verif.Ldml.C24_twice_violated",
    "Verif.Ldml.C24_serial_violated",
    "Verif.Ldml.C24_document_order",
    "Verif.Ldml.C24_file_again_partial",
    "Verif.Ldml.C24_file_drafts_partial",
    "Verif.Ldml.C24_nested_violated",
    "Verif.Ldml.C24_parents_violated",
    "Verif.Ldml.C24_file_settles_partial",
    "Verif.Ldml.C24_hash_settles_partial",
    "Verif.Ldml.C24_repeats_violated",
    "Verif.Ldml.C24_twice_all_violated",
    "Verif.Ldml.C24_serial_all_violated",
    "Verif.Ldml.C24_hash"
   ],
   "note": "Sorting, order and content: full without drafts. With drafts a second normalisation discards the alternates it does not find in the tree, and serial elements with an alt are written twice: witnesses. From file to file: load, save, load, save writes the same characters, without drafts; with drafts under guards, and witnesses for two of the guards (alternates within an element with alt get a longer name with each run; drafts of parents are lost). Whatever the duplicates and drafts, from the second run on the file stays the same, for documents in which repeatable elements have no alt and elements with alt no two children for the same thing (C24_file_settles_partial); a repeatable element with alt is written once more by each run (C24_repeats_violated). For every document as it is read a second normalising with drafts leaves no alternate anywhere (C24_twice_all_violated), and every repeatable child with an alt of its own is in the result twice (C24_serial_all_violated)."
  },
  {
   "property": "C25",
   "status": "proved",
   "theorems": [
    "Verif.Xml.C25_shape",
    "Verif.Xml.C25_fixed",
    "Verif.Xml.C25_idempotent",
    "Verif.Xml.C25_keeps",
    "Verif.Ldml.C25_document",
    "Verif.Ldml.C25_all_there"
   ],
   "note": " Also of whole documents: all texts of a normalised document are of this form, and each is the text of an element of the document with nothing but white space gone (C25_document, C25_all_there)."
  },
  {
   "property": "C26",
   "status": "proved",
   "theorems": [
    "Verif.Xml.C26_build",
    "Verif.Xml.C26_accepts",
    "Verif.Xml.C26_mismatch"
   ],
   "note": ""
  },
  {
   "property": "C27",
   "status": "partial",
   "theorems": [
    "Verif.Ldml.C27_expanded_partial",
    "Verif.Ldml.C27_stable",
    "Verif.Ldml.C27_cycle",
    "Verif.Ldml.C27_expanded_violated",
    "Verif.Ldml.C27_none",
    "Verif.Ldml.C27_exact_partial",
    "Verif.Ldml.C27_left_all_violated"
   ],
   "note": "Expansion proved for rules whose brackets pair up; an unpaired bracket before an import hides it: witness. A cycle of imports exhausts the stack: proved as C27_cycle. Exactly: for paired brackets it returns if and only if no endless way leads from import to import, cycles of any length included (C27_exact_partial). The violation holds for all imports that are written in the midst of the word import of another one and expand to nothing (C27_left_all_violated)."
  },
  {
   "property": "C28",
   "status": "partial",
   "theorems": [
    "Verif.Merge.C28_keeps_partial",
    "Verif.Merge.C28_fills_partial",
    "Verif.Merge.C28_idempotent_partial",
    "Verif.Merge.C28_source_partial",
    "Verif.Merge.C28_fonts_violated",
    "Verif.Merge.C28_twice_violated",
    "Verif.Merge.C28_total_violated",
    "Verif.Merge.C28_rest_partial",
    "Verif.Merge.C28_fonts_partial",
    "Verif.Merge.C28_total_partial",
    "Verif.Merge.C28_fills",
    "Verif.Merge.C28_again_partial",
    "Verif.Merge.C28_total_all_violated",
    "Verif.Merge.C28_default_all_violated"
   ],
   "note": "Keeping, sources and idempotence are proved for every parent without sil:external-resources. For every parent: all that is no font is kept (C28_rest_partial), all that the parent has is then there (C28_fills), what becomes of the fonts (C28_fonts_partial, exact), when the overlay raises (C28_total_partial, exact), and that a second overlay changes nothing but the places of fonts among the other elements (C28_again_partial). With external resources the child can lose fonts, a second overlay reorders, and a child without one raises: witnesses. For all documents: every parent with external resources raises for every child without (C28_total_all_violated), every font for default removes all fonts of the child (C28_default_all_violated)."
  },
  {
   "property": "C29",
   "status": "partial",
   "theorems": [
    "Verif.Merge.C29_only",
    "Verif.Merge.C29_self",
    "Verif.Merge.C29_unrelated",
    "Verif.Merge.C29_removed",
    "Verif.Merge.C29_attribute_violated",
    "Verif.Merge.C29_alternates_violated",
    "Verif.Merge.C29_clean_partial",
    "Verif.Merge.C29_alternates_all_violated"
   ],
   "note": "What is removed is held by the parent, for all documents; non-key attributes and alternates inside a removed element are ignored: witnesses. For all elements with the content of the parent's: C29_alternates_all_violated."
  },
  {
   "property": "C30",
   "status": "partial",
   "theorems": [
    "Verif.Merge.C30_restores_partial",
    "Verif.Merge.C30_blocking_violated",
    "Verif.Merge.C30_attribute_violated",
    "Verif.Merge.C30_alternates_violated",
    "Verif.Merge.C30_alias_violated",
    "Verif.Merge.C30_blocking_all_violated",
    "Verif.Merge.C30_alias_all_violated"
   ],
   "note": "Round trip proved under Restorable (unique keys, no alias, no alternates, no blocking element of the parent, non-key attributes agree); each excluded case has a witness. For all blocking elements and aliases that both have: C30_blocking_all_violated, C30_alias_all_violated."
  },
  {
   "property": "C31",
   "status": "partial",
   "theorems": [
    "Verif.Merge.C31_ours_partial",
    "Verif.Merge.C31_clash_violated",
    "Verif.Merge.merge_total",
    "Verif.Merge.C31_drafts_partial",
    "Verif.Merge.C31_clash_iff_partial",
    "Verif.Merge.C31_clash_all_violated"
   ],
   "note": "Without drafts, all documents. A root attribute that only we changed is reported as a clash: witness. With drafts: children with different keys, if no value of the base had a better draft (C123_base_violated). A clash is reported exactly if an attribute of the root was changed (C31_clash_iff_partial)."
  },
  {
   "property": "C32",
   "status": "partial",
   "theorems": [
    "Verif.Merge.C32_theirs_partial",
    "Verif.Merge.C32_duplicate_violated",
    "Verif.Merge.C32_removed_violated",
    "Verif.Merge.C32_alternates_violated",
    "Verif.Merge.C32_drafts_partial",
    "Verif.Merge.C32_new_exact_partial",
    "Verif.Merge.C32_alternates_all_violated",
    "Verif.Merge.C32_duplicate_all_violated"
   ],
   "note": "Without drafts, siblings of different content. Duplicates and alternates of new elements are lost: witnesses. With drafts: children with different keys, if theirs has no alternates (C123_theirs_violated). What an element without children gets is exact (C32_new_exact_partial): never alternates (C32_alternates_all_violated), of those with one content just one (C32_duplicate_all_violated)."
  },
  {
   "property": "C33",
   "status": "partial",
   "theorems": [
    "Verif.Merge.C33_agree_partial",
    "Verif.Merge.C33_clash_violated",
    "Verif.Merge.C33_duplicate_violated",
    "Verif.Merge.C33_drafts_partial",
    "Verif.Merge.C33_clash_all_violated"
   ],
   "note": "Without drafts. A clash is reported if the text of the root differs from the base; with winner=other duplicates go: witnesses. With drafts: children with different keys. For all documents whose root has another text: C33_clash_all_violated."
  },
  {
   "property": "C34",
   "status": "partial",
   "theorems": [
    "Verif.Merge.C34_flatten",
    "Verif.Merge.C34_unflatten",
    "Verif.Merge.C34_truncations_partial",
    "Verif.Merge.C34_language",
    "Verif.Merge.C34_parent",
    "Verif.Merge.C34_once_partial",
    "Verif.Merge.C34_twice_violated",
    "Verif.Merge.C34_last_violated",
    "Verif.Merge.C34_root_violated",
    "Verif.Merge.C34_twice_all_violated",
    "Verif.Merge.C34_last_all_violated",
    "Verif.Merge.C34_root_all_violated"
   ],
   "note": "Proved for locales with at most one explicit parent (all those of supplementalData.xml); with several parents the order and the uniqueness fail: witnesses. For all parents with a common beginning, all lists with root before another name, all names under root_: C34_*_all_violated."
  },
  {
   "property": "C35",
   "status": "proved",
   "theorems": [
    "Verif.Merge.C35_history",
    "Verif.Merge.C35_flatten",
    "Verif.Merge.C35_parents_violated"
   ],
   "note": "All histories. What get_parent_locales returns to others does change: witness."
  },
  {
   "property": "C36",
   "status": "proved",
   "theorems": [
    "Verif.Merge.C36_history",
    "Verif.Merge.C36_pop",
    "Verif.Merge.C36_keys",
    "Verif.Merge.C36_remove"
   ],
   "note": "All histories of set, pop and remove."
  },
  {
   "property": "C37",
   "status": "partial",
   "theorems": [
    "Verif.Keyboard.C37_typing_partial",
    "Verif.Keyboard.C37_omit_violated",
    "Verif.Keyboard.C37_omit_all_violated"
   ],
   "note": "Proved for every keyboard that can be opened and every key sequence without backspace, except for the setting fallback=omit together with an empty set of simple transforms, which drops everything typed on every such keyboard. With backspace: C70."
  },
  {
   "property": "C38",
   "status": "proved",
   "theorems": [
    "Verif.Keyboard.C38_order"
   ],
   "note": "For every permutation, and whatever else is in the file; names are ASCII letters, lower casing is a parameter assumed right on them."
  },
  {
   "property": "C39",
   "status": "partial",
   "theorems": [
    "Verif.Keyboard.C39_longest_partial",
    "Verif.Keyboard.C39_total_partial",
    "Verif.Keyboard.C39_negated_violated",
    "Verif.Keyboard.C39_api_violated"
   ],
   "note": "The matcher is right on every set of Rule objects for which it does not raise, and does not raise without negated sets; negated sets raise KeyError, and Rules.append never adds a rule (C40)."
  },
  {
   "property": "C40",
   "status": "partial",
   "theorems": [
    "Verif.Keyboard.C40_violated",
    "Verif.Keyboard.C40_no_rules_partial"
   ],
   "note": "Refuted for every rule: no keyboard with a rule whose from is not empty can be loaded. Keyboards without such rules load."
  },
  {
   "property": "C41",
   "status": "proved",
   "theorems": [
    "Verif.Keyboard.C41_independent",
    "Verif.Keyboard.C41_clone_contents",
    "Verif.Keyboard.C41_ops"
   ],
   "note": "Contexts and lists as objects on a heap; all histories."
  },
  {
   "property": "C42",
   "status": "partial",
   "theorems": [
    "Verif.Exemplars.C42_pieces",
    "Verif.Exemplars.C42_text",
    "Verif.Exemplars.C42_keys",
    "Verif.Exemplars.C42_lost_mark_violated",
    "Verif.Exemplars.C42_case_violated",
    "Verif.Exemplars.C42_characters",
    "Verif.Exemplars.C42_lost_mark_all_violated",
    "Verif.Exemplars.C42_case_all_violated"
   ],
   "note": "Every text is cut without loss into pieces with the right counts; but marks after a given exemplar are skipped, and a capital with a nukta is not folded: witnesses. Both also for all characters of the kind (C42_*_all_violated)."
  },
  {
   "property": "C43",
   "status": "proved",
   "theorems": [
    "Verif.Exemplars.C43_ends",
    "Verif.Exemplars.C43_analysis_ends"
   ],
   "note": "Every collection with distinct keys, which a Counter always has (C42_keys); every table of character properties."
  },
  {
   "property": "C44",
   "status": "partial",
   "theorems": [
    "Verif.Exemplars.C44_split",
    "Verif.Exemplars.C44_violated",
    "Verif.Exemplars.C44_least_partial",
    "Verif.Exemplars.C44_exact_partial",
    "Verif.Exemplars.C44_same_all_violated"
   ],
   "note": "One split is exact; the analysis as a whole splits some exemplars several times and so counts twice: witness. The whole of the splitting never loses a count (C44_least_partial) and keeps all counts if no exemplar has two trailers and no mark two others on the same bases (C44_exact_partial); a mark with j ≥ 2 others on its bases is counted j times (C44_same_all_violated)."
  },
  {
   "property": "C45",
   "status": "partial",
   "theorems": [
    "Verif.Exemplars.C45_one_of",
    "Verif.Exemplars.C45_not_both_partial",
    "Verif.Exemplars.C45_frequent",
    "Verif.Exemplars.C45_violated",
    "Verif.Exemplars.C45_same_text_all_violated"
   ],
   "note": "Exact for exemplars with different texts; a mark that is also a base may get into both sets: witness. The comparison of floats is a parameter, monotone in the count. Any two exemplars with the same text, one frequent and one rare, put it in both sets (C45_same_text_all_violated)."
  },
  {
   "property": "C46",
   "status": "partial",
   "theorems": [
    "Verif.Langtags.C46_print_partial",
    "Verif.Langtags.C46_stable_partial",
    "Verif.Langtags.C46_extlang_script_violated",
    "Verif.Langtags.C46_extlang_case_violated",
    "Verif.Langtags.C46_variant_violated",
    "Verif.Langtags.C46_private_violated",
    "Verif.Langtags.C46_order_violated",
    "Verif.Langtags.C46_extlang_scripts_violated"
   ],
   "note": "Holds for every well formed tag outside five classes, each with a witness: extended language followed by script, extended language not in lower case, variants of four characters, one-character private-use subtags, extensions or their subtags not in alphabetical order."
  },
  {
   "property": "C47",
   "status": "partial",
   "theorems": [
    "Verif.Langtags.C47_partial",
    "Verif.Langtags.C47_read",
    "Verif.Langtags.C47_violated",
    "Verif.Langtags.C47_extlang_violated"
   ],
   "note": "len is the number of subtags unless there is an extended language; then it is less, for all tags."
  },
  {
   "property": "C48",
   "status": "proved",
   "theorems": [
    "Verif.Langtags.C48_components",
    "Verif.Langtags.C48_self",
    "Verif.Langtags.C48_read"
   ],
   "note": "matches is equality of language, script, region and of the other components as sets, where required."
  },
  {
   "property": "C49",
   "status": "proved",
   "theorems": [
    "Verif.Langtags.C49_powerset",
    "Verif.Langtags.C49_positions"
   ],
   "note": "Every list, with and without repetition."
  },
  {
   "property": "C50",
   "status": "partial",
   "theorems": [
    "Verif.Langtags.C50_forms",
    "Verif.Langtags.C50_no_new",
    "Verif.Langtags.C50_full_partial",
    "Verif.Langtags.C50_order_violated",
    "Verif.Langtags.C50_unknown_region_violated",
    "Verif.Xml.strLe_spec",
    "Verif.Langtags.C50_full_iff_partial",
    "Verif.Langtags.C50_unknown_region_all_violated"
   ],
   "note": "The forms are characterised exactly and never have a new subtag. The tag itself is a form if its variants and extensions are in order; witnesses otherwise. Without extensions a tag is one of its forms exactly if its variants are in order without repetition (C50_full_iff_partial); every tag with region ZZ and no script has no form (C50_unknown_region_all_violated)."
  },
  {
   "property": "C51",
   "status": "partial",
   "theorems": [
    "Verif.Langtags.C51_found",
    "Verif.Langtags.C51_new_partial",
    "Verif.Langtags.C51_unmerged",
    "Verif.Langtags.C51_violated",
    "Verif.Langtags.C51_exact_partial",
    "Verif.Langtags.C51_stays_all_violated",
    "Verif.Langtags.C51_taken_all_violated"
   ],
   "note": "Every form finds an entry after every history; it finds the entry returned for the tag unless it was in the table before; witness. C51_exact_partial says exactly when a form finds the entry returned; a form stays with another entry whenever its tag is merged (C51_stays_all_violated), and is taken away from the entry it was registered for whenever a new tag with that form is refused (C51_taken_all_violated)."
  },
  {
   "property": "C52",
   "status": "partial",
   "theorems": [
    "Verif.Parents.C52_ends_partial",
    "Verif.Parents.C52_parents",
    "Verif.Parents.C52_complete",
    "Verif.Parents.C52_find",
    "Verif.Parents.C52_root",
    "Verif.Parents.C52_unknown_violated",
    "Verif.Parents.C52_gap_violated",
    "Verif.Parents.C52_cut_violated",
    "Verif.Parents.C52_endless_violated",
    "Verif.Parents.C52_language",
    "Verif.Parents.C52_variant",
    "Verif.Parents.C52_private",
    "Verif.Parents.C52_cut_all_violated",
    "Verif.Parents.C52_unknown_all_violated",
    "Verif.Parents.C52_gap_all_violated"
   ],
   "note": "Ends for every entry whose text does not start with a hyphen; parents are strictly shorter prefixes, meet the conditions, and none is missed. An unknown tag, or an ancestor missing from the database, raises: witnesses. For locales that are not in the database: a language alone is a root (C52_language), exactly when the locale without its last part is the parent (C52_variant), private use is taken off (C52_private); and for all locales of the kind, the last character is taken off (C52_cut_all_violated) or the search raises (C52_unknown_all_violated). The search raises for every locale of the database that is not there without its last part: C52_gap_all_violated."
  },
  {
   "property": "C53",
   "status": "partial",
   "theorems": [
    "Verif.Collation.C53_compare_antisymmetric_partial",
    "Verif.Collation.C53_compare_known",
    "Verif.Collation.C53_self_partial",
    "Verif.Collation.C53_unknown_violated",
    "Verif.Collation.C53_empty_violated"
   ],
   "note": "For strings that are not empty. A string that is not known, nor its first character, is not equal to itself, and the empty string raises one way round only: refuted for all tables."
  },
  {
   "property": "C54",
   "status": "partial",
   "theorems": [
    "Verif.Iana.C54_partial",
    "Verif.Iana.C54_tag_violated",
    "Verif.Iana.C54_list_violated",
    "Verif.Iana.C54_colon_violated",
    "Verif.Iana.C54_tag_all_violated",
    "Verif.Iana.C54_list_all_violated",
    "Verif.Iana.C54_colon_all_violated"
   ],
   "note": "Every registry of records for subtags with fields in the usual order; records for whole tags, further lines of a repeated field and further lines with a colon are read wrongly: witnesses, and for every record of a whole tag that its fields become fields of the subtag before. Also for all records of the kind: a further line of a repeated field goes into the list character by character (C54_list_all_violated), and a further line with a colon makes a field that the record was not given (C54_colon_all_violated)."
  },
  {
   "property": "C55",
   "status": "partial",
   "theorems": [
    "Verif.Sheet.C55_exact",
    "Verif.Sheet.C55_partial",
    "Verif.Sheet.C55_repeated_violated",
    "Verif.Sheet.C55_beyond_violated",
    "Verif.Sheet.C55_markup_violated",
    "Verif.Sheet.C55_beyond_all_violated",
    "Verif.Sheet.C55_repeated_all_violated",
    "Verif.Sheet.C55_markup_all_violated"
   ],
   "note": "Exact effect for every column that the row has; other columns of a repeated cell with a text are emptied, a column beyond the row destroys the last cell, markup hides the write: shown for all rows, with the exact result."
  },
  {
   "property": "C56",
   "status": "partial",
   "theorems": [
    "Verif.Template.C56_partial",
    "Verif.Template.C56_violated",
    "Verif.Template.C56_product_violated",
    "Verif.Template.C56_stairs_all_violated",
    "Verif.Template.C56_fewer_all_violated",
    "Verif.Template.C56_one_partial",
    "Verif.Template.C56_sound_partial"
   ],
   "note": "Refuted for every dictionary of strings and lists: exactly one dictionary is yielded. Even for objects with an attribute len the product is incomplete; one key works. For objects with an attribute len what is given is stated exactly for any number of keys (C56_stairs_all_violated): all combinations if at most one key has several values (C56_one_partial), never all if two have (C56_fewer_all_violated), and nothing that is not a combination (C56_sound_partial)."
  },
  {
   "property": "C57",
   "status": "proved",
   "theorems": [
    "Verif.Merge.C57_last",
    "Verif.Merge.C57_single",
    "Verif.Merge.C57_ends"
   ],
   "note": ""
  },
  {
   "property": "C58",
   "status": "proved",
   "theorems": [
    "Verif.Collation.C58_expand",
    "Verif.Collation.C58_unknown"
   ],
   "note": ""
  },
  {
   "property": "C59",
   "status": "partial",
   "theorems": [
    "Verif.Collation.C59_keyfn_descending_violated",
    "Verif.Collation.C59_words_violated"
   ],
   "note": "The code sorts in the opposite order: the negation is proved. Strings that are not in the table as a whole are compared by their first characters only."
  },
  {
   "property": "C60",
   "status": "partial",
   "theorems": [
    "Verif.Collation.C60_after_base_partial",
    "Verif.Collation.C60_tie_violated",
    "Verif.Collation.C60_unknown_base_violated",
    "Verif.Collation.C60_tie_all_violated",
    "Verif.Collation.C60_unknown_base_all_violated"
   ],
   "note": "Entries without before (C95 has those) and without expansion (C127 has those); exact arithmetic (C143 has the rounding). For all tailorings: two rules for one base at one level are ties, and a rule for an unknown base makes all keys fail."
  },
  {
   "property": "C61",
   "status": "partial",
   "theorems": [
    "Verif.Collation.C61_before_next_partial",
    "Verif.Collation.C61_in_place_partial",
    "Verif.Collation.C61_mixed_partial",
    "Verif.Collation.C61_expansion_partial",
    "Verif.Collation.C61_expansion_violated"
   ],
   "note": "Entries with and without before, exact arithmetic (C143 has the rounding). Expansions may be elsewhere in the tailoring; an entry with an expansion stays in place too, but what follows it in its chain does not if the expansion has the greater weight: refuted for all such tailorings. With `before`, bases with weights at all levels."
  },
  {
   "property": "C62",
   "status": "partial",
   "theorems": [
    "Verif.Ldml.C62_save_partial",
    "Verif.Ldml.C62_texts_partial",
    "Verif.Ldml.C62_session_partial",
    "Verif.Ldml.C62_session_violated",
    "Verif.Ldml.C62_written",
    "Verif.Ldml.C62_left_out"
   ],
   "note": "Sessions of additions and saves: full. After a change of draft between saves a position is lost: witness."
  },
  {
   "property": "C63",
   "status": "partial",
   "theorems": [
    "Verif.Xml.C63_comments_partial",
    "Verif.Xml.C63_text_violated",
    "Verif.Xml.C63_lead_violated",
    "Verif.Xml.C63_within_violated"
   ],
   "note": "Proved for comments between elements; text after a comment within text is lost, for all texts."
  },
  {
   "property": "C64",
   "status": "partial",
   "theorems": [
    "Verif.Ldml.C64_xpath_partial",
    "Verif.Ldml.C64_xpath_violated",
    "Verif.Ldml.C64_xpath_all_violated"
   ],
   "note": "Names with a namespace contain '/', and their paths lead nowhere: witness. No element below a tag with a slash is found by its path: C64_xpath_all_violated."
  },
  {
   "property": "C65",
   "status": "partial",
   "theorems": [
    "Verif.Merge.C65_false_partial",
    "Verif.Merge.C65_false_violated",
    "Verif.Merge.C65_true_violated",
    "Verif.Merge.C65_reported_partial",
    "Verif.Merge.C65_added_violated",
    "Verif.Merge.C65_gone_violated"
   ],
   "note": "False means nothing changed or removed; when True is returned is exact for children with different keys (C65_reported_partial). Refuted for all documents of a kind: elements that are added are not reported, and True is returned without a change if we had removed something."
  },
  {
   "property": "C66",
   "status": "proved",
   "theorems": [
    "Verif.Merge.C66_three_way",
    "Verif.Merge.merge_total"
   ],
   "note": "The hypothesis that equal content means equal key is what the hashes give (C18). Merges with drafts are C123."
  },
  {
   "property": "C67",
   "status": "partial",
   "theorems": [
    "Verif.Merge.C67_own_partial",
    "Verif.Merge.C67_parents_violated",
    "Verif.Merge.C67_looked_at_partial",
    "Verif.Merge.C67_skipped_violated",
    "Verif.Merge.C67_skipped_cut_violated"
   ],
   "note": "Which names are looked at is exact (C67_looked_at_partial). Refuted for all tables: an explicit parent of a locale further up is not followed unless it is in the chain anyway; en_AT skips en_001."
  },
  {
   "property": "C68",
   "status": "partial",
   "theorems": [
    "Verif.Merge.C68_changed_partial",
    "Verif.Merge.C68_changed_violated",
    "Verif.Merge.C68_further_violated"
   ],
   "note": "One direction holds; a change of a locale further up the chain is missed, for all tables and documents."
  },
  {
   "property": "C69",
   "status": "partial",
   "theorems": [
    "Verif.Merge.C34_unflatten",
    "Verif.Merge.C69_unflatten_violated",
    "Verif.Merge.C69_clean_partial",
    "Verif.Merge.C69_stays_violated"
   ],
   "note": "Nothing is left that is as in the first parent, on any level (without alternates, keys apart); what only documents further up have stays, for all documents."
  },
  {
   "property": "C70",
   "status": "partial",
   "theorems": [
    "Verif.Keyboard.C70_at_end_partial",
    "Verif.Keyboard.C70_no_rules_violated",
    "Verif.Keyboard.C70_comes_back_violated"
   ],
   "note": "Holds for backspaces at the end of the sequence if the keyboard has a rule set for backspace; without one the key raises; with one the next key brings back what was removed, on every keyboard."
  },
  {
   "property": "C71",
   "status": "partial",
   "theorems": [
    "Verif.Keyboard.C71_permutation_partial",
    "Verif.Keyboard.C71_no_base_violated",
    "Verif.Keyboard.C71_no_base_all_violated"
   ],
   "note": "Whenever the layer does not raise its output is a permutation; a run without a base raises instead of getting a dotted circle, shown for all texts of prebase characters only."
  },
  {
   "property": "C72",
   "status": "partial",
   "theorems": [
    "Verif.Keyboard.C72_optional_violated",
    "Verif.Keyboard.C72_alternatives_violated",
    "Verif.Keyboard.C72_alternatives_all_violated"
   ],
   "note": "Refuted: optional modifiers always raise; alternatives are merged into one combination. C72_alternatives_all_violated says so for all alternatives: the keyboard does nothing for each of them, and uses the keyMap when all modifiers are pressed together."
  },
  {
   "property": "C73",
   "status": "partial",
   "theorems": [
    "Verif.Langtags.C73_listed_partial",
    "Verif.Langtags.C73_same_partial",
    "Verif.Langtags.C73_blank_violated",
    "Verif.Langtags.C73_empty_line_violated"
   ],
   "note": "Every list that can be read; no list with a line without tags can be."
  },
  {
   "property": "C74",
   "status": "proved",
   "theorems": [
    "Verif.Langtags.C74_analyse",
    "Verif.Langtags.analyse_fuel",
    "Verif.Langtags.C74_phonetic"
   ],
   "note": "Every table as a function and every tag; the recursion of the model has a bound that analyse_fuel shows to be harmless."
  },
  {
   "property": "C75",
   "status": "partial",
   "theorems": [
    "Verif.Langtags.C75_merged",
    "Verif.Langtags.C75_failed_partial",
    "Verif.Langtags.C75_violated",
    "Verif.Langtags.C75_changed"
   ],
   "note": "A merge that is refused can change whether the script is hidden; C75_changed says exactly when."
  },
  {
   "property": "C76",
   "status": "partial",
   "theorems": [
    "Verif.Sheet.C76_read_partial",
    "Verif.Sheet.C76_readback_partial",
    "Verif.Sheet.C76_run_violated",
    "Verif.Sheet.C76_read_exact_partial",
    "Verif.Sheet.C76_run_all_violated"
   ],
   "note": "Rows without runs of ten or more cells; witness otherwise. What is read of every row is exact (C76_read_exact_partial); after every run of n cells all columns are read n-1 too far to the left (C76_run_all_violated)."
  },
  {
   "property": "C77",
   "status": "proved",
   "theorems": [
    "Verif.Sheet.C77_same_cells",
    "Verif.Sheet.C77_same_attribute",
    "Verif.Sheet.C77_headers",
    "Verif.Sheet.C77_several"
   ],
   "note": "All kinds of rows, as the paths used; ensure_path and find of the document are C18 to C21."
  },
  {
   "property": "C78",
   "status": "proved",
   "theorems": [
    "Verif.Sheet.C78_reads",
    "Verif.Sheet.C78_once",
    "Verif.Sheet.C78_exactly",
    "Verif.Sheet.C78_each_once"
   ],
   "note": "Every sheet: C78_exactly says with what calls processing ends, and for which sheets it raises instead (C78_reads is the same for well formed headers). Termination by the total model."
  },
  {
   "property": "C79",
   "status": "partial",
   "theorems": [
    "Verif.Parents.C79_violated"
   ],
   "note": "Refuted for every database and tag: no parent is ever found."
  },
  {
   "property": "C80",
   "status": "partial",
   "theorems": [
    "Verif.Exemplars.C80_longest_partial",
    "Verif.Exemplars.C80_violated",
    "Verif.Exemplars.C80_pair_violated",
    "Verif.Exemplars.C80_pair_lost_violated"
   ],
   "note": "Not right after another given exemplar: shown for all pairs of letters after a given exemplar."
  },
  {
   "property": "C81",
   "status": "proved",
   "theorems": [
    "Verif.Exemplars.C81_settled",
    "Verif.Exemplars.C81_only"
   ],
   "note": "All five criteria, in both directions: what is left has none of the reasons, and without one nothing is split."
  },
  {
   "property": "C82",
   "status": "partial",
   "theorems": [
    "Verif.Exemplars.C82_nothing_added",
    "Verif.Exemplars.C82_nothing_lost_partial",
    "Verif.Exemplars.C82_text_partial",
    "Verif.Exemplars.C82_violated",
    "Verif.Exemplars.C82_mark_violated"
   ],
   "note": "From the text to the sets; a mark that combines is lost on every ignorable base."
  },
  {
   "property": "C83",
   "status": "proved",
   "theorems": [
    "Verif.Exemplars.C83_analyze",
    "Verif.Exemplars.C83_graphemes"
   ],
   "note": ""
  },
  {
   "property": "C84",
   "status": "proved",
   "theorems": [
    "Verif.Exemplars.C84_index"
   ],
   "note": ""
  },
  {
   "property": "C85",
   "status": "partial",
   "theorems": [
    "Verif.Exemplars.C85_partial",
    "Verif.Exemplars.C85_violated",
    "Verif.Exemplars.C85_split_violated"
   ],
   "note": "Only before the first separate mark; every ignorable letter with a mark that never combines gets into the main set."
  },
  {
   "property": "C86",
   "status": "partial",
   "theorems": [
    "Verif.Exemplars.C86_violated"
   ],
   "note": "Refuted: whenever a mark was split off, another analysis raises."
  },
  {
   "property": "C87",
   "status": "proved",
   "theorems": [
    "Verif.Exemplars.C87_script"
   ],
   "note": ""
  },
  {
   "property": "C88",
   "status": "partial",
   "theorems": [
    "Verif.Exemplars.C88_noncasing",
    "Verif.Exemplars.C88_text_partial",
    "Verif.Exemplars.C88_nukta_violated",
    "Verif.Exemplars.C88_all_nuktas_violated"
   ],
   "note": "From the text to the report, for texts without nuktas; every letter with a nukta that has both cases is reported twice."
  },
  {
   "property": "C89",
   "status": "partial",
   "theorems": [
    "Verif.Collation.C89_finishes_partial",
    "Verif.Collation.C89_identity_violated",
    "Verif.Collation.C89_circle_violated"
   ],
   "note": "Finishes if bases come first and no `=` relation has a tailored base; witnesses otherwise. First call on an object."
  },
  {
   "property": "C90",
   "status": "partial",
   "theorems": [
    "Verif.Collation.C90_violated"
   ],
   "note": "Refuted for every matcher that finds no change between equal lists."
  },
  {
   "property": "C91",
   "status": "partial",
   "theorems": [
    "Verif.UnicodeSets.C91_escape_partial",
    "Verif.UnicodeSets.C91_brace_violated",
    "Verif.UnicodeSets.C91_group_violated",
    "Verif.UnicodeSets.C91_group_partial",
    "Verif.UnicodeSets.C91_no_digits_violated",
    "Verif.UnicodeSets.C91_brace_all_violated"
   ],
   "note": "The pattern has `ux` where `[ux]` was meant, so \\x{..} is not an escape; \\u{..} only in sets. For every text after the brace: C91_brace_all_violated."
  },
  {
   "property": "C92",
   "status": "partial",
   "theorems": [
    "Verif.UnicodeSets.C92_union_partial",
    "Verif.UnicodeSets.C92_difference_violated",
    "Verif.UnicodeSets.C92_nested_violated",
    "Verif.UnicodeSets.C92_chain_violated",
    "Verif.UnicodeSets.C92_range_violated",
    "Verif.UnicodeSets.C92_string_violated",
    "Verif.UnicodeSets.C92_negated_violated",
    "Verif.UnicodeSets.C92_outside_violated",
    "Verif.UnicodeSets.C92_inner_violated",
    "Verif.UnicodeSets.C92_operands_violated",
    "Verif.UnicodeSets.C92_negation_violated",
    "Verif.UnicodeSets.C92_second_violated",
    "Verif.UnicodeSets.C92_from_string_violated",
    "Verif.UnicodeSets.C92_after_range_violated",
    "Verif.UnicodeSets.C92_intersection_partial",
    "Verif.UnicodeSets.C92_operator_partial",
    "Verif.UnicodeSets.C92_forgotten_all_violated",
    "Verif.UnicodeSets.C92_mixed_all_violated"
   ],
   "note": "Union and intersection of two plain characters work. Shown for all operands: what follows an inner set is lost (so no operator between sets is computed), negation has no effect on the list, a second operator raises, a range from a string raises, what follows a range and a hyphen is lost. The operation chosen for two operands is the right one up to a negation (C92_operator_partial), the negation is forgotten (C92_forgotten_all_violated), and the union of a set and a negated set raises (C92_mixed_all_violated)."
  },
  {
   "property": "C93",
   "status": "proved",
   "theorems": [
    "Verif.UnicodeSets.C93_sequence"
   ],
   "note": "Blanks are dropped and backslashes are lost; see C01 for strings that have them."
  },
  {
   "property": "C94",
   "status": "partial",
   "theorems": [
    "Verif.Collation.C94_icu_partial",
    "Verif.Collation.C94_exact_partial",
    "Verif.Collation.C94_base_violated",
    "Verif.Collation.C94_twice_violated"
   ],
   "note": "All orders, keys and widths. A base may be replaced by the string written last if the two agree on the level; two rules for one string are mixed up: witnesses. Strings with operators: C10."
  },
  {
   "property": "C95",
   "status": "partial",
   "theorems": [
    "Verif.Collation.C95_before_partial",
    "Verif.Collation.C95_ignorable_violated",
    "Verif.Collation.C95_ignorable_all_violated"
   ],
   "note": "No expansions, exact arithmetic (C143 has the rounding), bases with weights; a base without weight at the level is a witness. For all tailorings without expansions: a [before n] rule whose base ends in a zero weight at that level puts the entry after the base (C95_ignorable_all_violated)."
  },
  {
   "property": "C96",
   "status": "partial",
   "theorems": [
    "Verif.Collation.C96_read_partial",
    "Verif.Collation.C96_two_cases",
    "Verif.Collation.C96_strict_violated",
    "Verif.Collation.C96_repeated_violated",
    "Verif.Collation.C96_strict_all_violated"
   ],
   "note": "Items that are different and have weights at the first level. strict still adds forms of items with several letters, and a repeated item shifts levels or makes reading fail: witnesses. For every file without slashes strict makes no difference: C96_strict_all_violated."
  },
  {
   "property": "C97",
   "status": "partial",
   "theorems": [
    "Verif.Collation.C97_order_partial",
    "Verif.Collation.C97_moved_violated"
   ],
   "note": "Exact arithmetic. If the string found by the comparison with the DUCET is not the start of a line, its relation to the item before it changes: witness."
  },
  {
   "property": "C98",
   "status": "partial",
   "theorems": [
    "Verif.Collation.C98_write_partial",
    "Verif.Collation.C98_first_violated",
    "Verif.Collation.C98_moved_violated",
    "Verif.Collation.C98_first_all_violated"
   ],
   "note": "A first line with one item is exchanged with the second, and lines that are placed before another for the order of the DUCET are written in a different order: witnesses. Every two lines of one letter without case are exchanged: C98_first_all_violated."
  },
  {
   "property": "C99",
   "status": "partial",
   "theorems": [
    "Verif.Exemplars.C99_read",
    "Verif.Exemplars.C99_read_back_partial",
    "Verif.Exemplars.C99_sorted",
    "Verif.Exemplars.C99_no_text_violated",
    "Verif.Exemplars.C99_common_violated",
    "Verif.Exemplars.C99_lost_all_violated",
    "Verif.Exemplars.C99_no_text_all_violated"
   ],
   "note": "Exactly the exemplars of the most common script come back; given sets are emptied of letters when no text was processed or when blanks and punctuation outnumber the letters: witnesses. No blanks and backslashes (C01). For all sets: letters of another script than the most common one are all lost, also if no text was processed (C99_*_all_violated)."
  },
  {
   "property": "C100",
   "status": "partial",
   "theorems": [
    "Verif.Ldml.C100_elements",
    "Verif.Ldml.C100_attributes",
    "Verif.Ldml.C100_values",
    "Verif.Ldml.C100_prefixed_violated",
    "Verif.Ldml.C100_prefixed_all_violated"
   ],
   "note": "Elements and values in full, attributes as sorted for the order of elements. In the file an attribute with a prefix comes after all declared ones: witness. For every attribute of the DTD with a prefix: C100_prefixed_all_violated."
  },
  {
   "property": "C101",
   "status": "partial",
   "theorems": [
    "Verif.Ldml.C101_distinguishes",
    "Verif.Ldml.C101_own",
    "Verif.Ldml.C101_marked_violated",
    "Verif.Ldml.C101_excluded_violated",
    "Verif.Ldml.C101_early_violated",
    "Verif.Ldml.C101_marked_all_violated",
    "Verif.Ldml.C101_excluded_all_violated",
    "Verif.Ldml.C101_early_all_violated"
   ],
   "note": "The exact set is given: marks in comments are never read and declared attributes cannot be excluded; three elements of the sil namespace have the attributes the code names. Witnesses. For all DTDs: comments are without effect, exclusions in the metadata of declared attributes too, and an attribute before its element is a KeyError (C101_*_all_violated)."
  },
  {
   "property": "C102",
   "status": "partial",
   "theorems": [
    "Verif.Langtags.C102_registry_partial",
    "Verif.Langtags.C102_found_partial",
    "Verif.Langtags.C102_first_violated",
    "Verif.Langtags.C102_last_violated",
    "Verif.Langtags.C102_every_last_violated",
    "Verif.Langtags.C102_every_first_violated",
    "Verif.Langtags.C102_guards_exact"
   ],
   "note": "Under the guards that the first variant has a prefix and that the last record is no variant, which are exact: any other registry of well-formed records ends with an error. For the table also that languages share no text."
  },
  {
   "property": "C103",
   "status": "partial",
   "theorems": [
    "Verif.Langtags.C103_faithful",
    "Verif.Langtags.C103_language_partial",
    "Verif.Langtags.C103_registry",
    "Verif.Langtags.C103_order_violated",
    "Verif.Langtags.C103_script_violated",
    "Verif.Langtags.C103_forms_violated",
    "Verif.Langtags.C103_late_all_violated",
    "Verif.Langtags.C103_forms_all_violated"
   ],
   "note": "That nothing wrong is found and that each `from` is found holds in full. The script and the region of `to` are proved for languages alone, when their element comes first; three witnesses show what fails otherwise. For all tables: an element whose whole tag the table has under another entry than the language changes nothing for the language (C103_late_all_violated), and one that is not for the language alone takes the language out of the forms (C103_forms_all_violated)."
  },
  {
   "property": "C104",
   "status": "partial",
   "theorems": [
    "Verif.Langtags.C104_extra_partial",
    "Verif.Langtags.C104_language_violated",
    "Verif.Langtags.C104_language_all_violated"
   ],
   "note": "When the tag names a script or a region. A language alone that is not in the table is not registered: witness. For every table without the language: C104_language_all_violated."
  },
  {
   "property": "C105",
   "status": "partial",
   "theorems": [
    "Verif.Langtags.C105_printed_partial",
    "Verif.Langtags.C105_hidden_violated",
    "Verif.Langtags.C50_unknown_region_violated",
    "Verif.Langtags.C105_hidden_all_violated"
   ],
   "note": "Proved for every tag with variants and subtags of extensions in order and no extension without subtags, if hideboth is set whenever neither script nor region is printed. Without that the property is false: witness. For every tag with just the region hidden: C105_hidden_all_violated."
  },
  {
   "property": "C106",
   "status": "partial",
   "theorems": [
    "Verif.Langtags.C106_faithful",
    "Verif.Langtags.C106_place_partial",
    "Verif.Langtags.C106_order_violated"
   ],
   "note": "Proved for languages written without a script of which no other text has one territory only. With such a text, earlier in the file, the language gets the wrong territory: witness."
  },
  {
   "property": "C107",
   "status": "partial",
   "theorems": [
    "Verif.Langtags.C107_read_partial",
    "Verif.Langtags.C107_order_partial",
    "Verif.Langtags.C107_forms_violated",
    "Verif.Langtags.C107_blank_violated",
    "Verif.Langtags.C107_components_violated",
    "Verif.Langtags.C107_blank_all_violated"
   ],
   "note": "Read back and order: for entries whose subtags have the usual shape, case and order. The forms of an entry are lost; a first variant of four characters without a script and the order of the subtags of an extension are lost (violated); an empty table cannot be read back. For every table without entries or with an entry without forms: C107_blank_all_violated."
  },
  {
   "property": "C108",
   "status": "partial",
   "theorems": [
    "Verif.Template.C108_clean",
    "Verif.Template.C108_attributes_partial",
    "Verif.Template.C108_literal",
    "Verif.Template.C108_leaf_violated",
    "Verif.Template.C108_number_violated",
    "Verif.Template.C108_namespaces",
    "Verif.Template.C108_value"
   ],
   "note": "Instructions: full. Attributes: for elements with children; an element without children keeps its template attributes (witness). An expression whose value is a number raises TypeError (witness)."
  },
  {
   "property": "C109",
   "status": "partial",
   "theorems": [
    "Verif.Template.C109_context",
    "Verif.Template.C109_variable",
    "Verif.Template.C109_foreach_partial",
    "Verif.Template.C109_leak_violated",
    "Verif.Template.C109_leak_all_violated"
   ],
   "note": "foreach: the iteration variables stay set after the loop and overwrite variables of that name (witness); all other variables are as before. For every foreach and each of its variables: C109_leak_all_violated."
  },
  {
   "property": "C110",
   "status": "partial",
   "theorems": [
    "Verif.Merge.C110_kept",
    "Verif.Merge.C110_ours_partial",
    "Verif.Merge.C110_theirs_partial",
    "Verif.Merge.C110_flag",
    "Verif.Merge.C110_worse_violated",
    "Verif.Merge.C110_dictionary_violated",
    "Verif.Merge.C110_removed_violated",
    "Verif.Merge.C110_best_partial",
    "Verif.Merge.C110_worse_all_violated",
    "Verif.Merge.C110_removed_all_violated",
    "Verif.Merge.C110_dictionary_all_violated"
   ],
   "note": "No loss, nothing made up, independence of the order: full. Which alternate becomes the element is exact (C110_best_partial). The better draft does not always win, and a removed alternate comes back: witnesses. All three for all alternates of the kind: C110_*_all_violated."
  },
  {
   "property": "C111",
   "status": "partial",
   "theorems": [
    "Verif.Zones.C111_place_partial",
    "Verif.Zones.C111_negative_violated"
   ],
   "note": "Proved for angles that are not negative or of whole degrees; for all others the place is off by twice the minutes and seconds, as in tzones.csv."
  },
  {
   "property": "C112",
   "status": "partial",
   "theorems": [
    "Verif.Zones.C112_order_partial",
    "Verif.Zones.C112_others",
    "Verif.Zones.C112_empty",
    "Verif.Zones.C112_comments_violated",
    "Verif.Zones.C112_listed",
    "Verif.Zones.C112_unlisted_partial",
    "Verif.Zones.C112_unlisted_all_violated"
   ],
   "note": "For files that list no zone twice and have no comment or blank line; with them zones that are not listed may come first: witness. An empty file raises. For all files with comments, blank lines and repeated zones: listed zones come in the order of their last lines (C112_listed); zones that are not listed come behind those among the first N lines, N the number of different names (C112_unlisted_partial), and before all later ones (C112_unlisted_all_violated), if N has as many digits as the number of lines."
  },
  {
   "property": "C113",
   "status": "partial",
   "theorems": [
    "Verif.Zones.C113_written",
    "Verif.Zones.C113_file",
    "Verif.Zones.C113_read",
    "Verif.Zones.C113_south_violated",
    "Verif.Zones.C113_hours_violated",
    "Verif.Zones.C113_etc"
   ],
   "note": "Full for the places that are computed. They are not the places of the table (C111), so that the order in the south is wrong, and the hours are put outside of the map: witnesses. `{:g}` is a parameter. C113_etc says which zones are added."
  },
  {
   "property": "C114",
   "status": "partial",
   "theorems": [
    "Verif.Ldml.Aliases.C114_gone",
    "Verif.Ldml.Aliases.C114_kept",
    "Verif.Ldml.Aliases.C114_plain",
    "Verif.Ldml.Aliases.C114_content_partial",
    "Verif.Ldml.Aliases.C114_ends",
    "Verif.Ldml.Aliases.C114_shared_violated",
    "Verif.Ldml.Aliases.C114_place_violated",
    "Verif.Ldml.Aliases.C114_cycle_violated",
    "Verif.Ldml.Aliases.C114_raises_violated",
    "Verif.Ldml.Aliases.C114_report_violated",
    "Verif.Ldml.Aliases.C114_self_violated"
   ],
   "note": "Without aliases after an end, nothing lost, and an end for documents whose aliases do not lead back. Violated: the place (one too late), loops (a document without end, ValueError, no end, or AttributeError in the message about the loop), and copies share their children. findall is a parameter."
  },
  {
   "property": "C115",
   "status": "proved",
   "theorems": [
    "Verif.Fonts.C115_literal",
    "Verif.Fonts.C115_order_needed"
   ],
   "note": "Full. The tree itself comes from sklearn."
  },
  {
   "property": "C116",
   "status": "proved",
   "theorems": [
    "Verif.Fonts.C116_matches",
    "Verif.Fonts.C116_skipped"
   ],
   "note": "Full, for both orders of the rules; C116_skipped says which leaves make no rule of their own."
  },
  {
   "property": "C117",
   "status": "partial",
   "theorems": [
    "Verif.Fonts.C117_sound",
    "Verif.Fonts.C117_none",
    "Verif.Fonts.C117_agreed_partial",
    "Verif.Fonts.C117_longest",
    "Verif.Fonts.C117_result",
    "Verif.Fonts.C117_order_violated",
    "Verif.Fonts.C117_default_violated",
    "Verif.Fonts.C117_absence_violated"
   ],
   "note": "Proved for tags on which all leaves that they match agree. Violated: the longest rule wins over the tree's order; there is no rule for the last leaf; the absence of a subtag is no condition."
  },
  {
   "property": "C118",
   "status": "proved",
   "theorems": [
    "Verif.AddFonts.C118_fonts"
   ],
   "note": "Full. The lookup of tags is a parameter."
  },
  {
   "property": "C119",
   "status": "partial",
   "theorems": [
    "Verif.AddFonts.C119_written",
    "Verif.AddFonts.C119_unknown",
    "Verif.AddFonts.C119_entries",
    "Verif.AddFonts.C119_twice",
    "Verif.AddFonts.C119_default_partial",
    "Verif.AddFonts.C119_default_violated",
    "Verif.AddFonts.C119_preference_violated",
    "Verif.AddFonts.C119_order_violated",
    "Verif.AddFonts.C119_features_violated",
    "Verif.AddFonts.C119_two_defaults_all_violated",
    "Verif.AddFonts.C119_no_default_all_violated",
    "Verif.AddFonts.C119_features_all_violated"
   ],
   "note": "One default font: if there was none in the file and the first font is not Noto Sans. Violated: an old default stays; no default if the first is Noto Sans; the fonts are sorted by name, not by preference; the order of a set decides between fonts of table and stylesheet; old features stay. The defaults and the features for all files: C119_*_all_violated."
  },
  {
   "property": "C120",
   "status": "partial",
   "theorems": [
    "Verif.AddFonts.C120_addresses",
    "Verif.AddFonts.C120_found",
    "Verif.AddFonts.C120_remembered",
    "Verif.AddFonts.C120_failure_violated",
    "Verif.AddFonts.C120_network_all_violated",
    "Verif.AddFonts.C120_again_all_violated",
    "Verif.AddFonts.C120_one_word_all_violated"
   ],
   "note": "Violated: errors of the network other than HTTP errors are not caught, a font of one word with a Noto CJK address raises IndexError, and addresses that are not there are requested each time. For all fonts: C120_*_all_violated."
  },
  {
   "property": "C121",
   "status": "partial",
   "theorems": [
    "Verif.Template.C121_words",
    "Verif.Template.C121_range",
    "Verif.Template.C121_default_partial",
    "Verif.Template.C121_choose",
    "Verif.Template.C121_doc",
    "Verif.Template.C121_empty_violated",
    "Verif.Template.C121_blank_violated"
   ],
   "note": "Violated: an element without text counts as not empty for default, which gives None, and makes firstword, findsep and split raise; firstword and findsep raise on a text of blanks."
  },
  {
   "property": "C122",
   "status": "partial",
   "theorems": [
    "Verif.Merge.C122_total_partial",
    "Verif.Merge.draftMerge_plain",
    "Verif.Merge.C122_default_violated",
    "Verif.Merge.C122_two_violated",
    "Verif.Merge.C122_alternate_violated",
    "Verif.Merge.C122_alternate_all_violated"
   ],
   "note": "With a default that is not on the scale (as ldmlmerge passes it), three documents, and no alternate 'proposed' in theirs. Violated: with drafts the default of the argument default always raises; two documents whose roots have the same text raise; an alternate 'proposed' on all sides can raise. For all children of a kind: C122_alternate_all_violated."
  },
  {
   "property": "C123",
   "status": "partial",
   "theorems": [
    "Verif.Merge.C123_decision_partial",
    "Verif.Merge.C123_base_violated",
    "Verif.Merge.C123_theirs_violated",
    "Verif.Merge.C123_new_violated",
    "Verif.Merge.C123_children_violated",
    "Verif.Merge.C123_base_all_violated",
    "Verif.Merge.C123_theirs_all_violated",
    "Verif.Merge.C123_new_all_violated"
   ],
   "note": "All cases, as far as C122 says that the merge works, and unless the base of the element itself has a text and a better draft. Violated: what is not taken is lost if there were no alternates; a change of theirs is lost if alternates changed too; of containers that are new on both sides theirs is lost; children are replaced by those of the base if the base of a container has a better draft. For all children of a kind, one step of the merge: C123_base_all_violated, C123_theirs_all_violated, C123_new_all_violated."
  },
  {
   "property": "C124",
   "status": "partial",
   "theorems": [
    "Verif.Files.C124_merge",
    "Verif.Files.C124_ldml",
    "Verif.Files.C124_same",
    "Verif.Files.C124_listed",
    "Verif.Files.C124_listed_partial",
    "Verif.Files.C124_iterate",
    "Verif.Files.C124_differ_violated",
    "Verif.Files.C124_hyphen_violated",
    "Verif.Files.C124_listed_violated",
    "Verif.Files.C124_empty_violated"
   ],
   "note": "The search, the list and iterate_files in full. The same file just for one directory and tags without hyphen: with two directories the ways differ, and a tag with a hyphen is found for reading alone. What is listed is found if files are in the directory of their letter. The empty tag raises."
  },
  {
   "property": "C125",
   "status": "partial",
   "theorems": [
    "Verif.Files.C125_schedule",
    "Verif.Files.C125_ends",
    "Verif.Files.C125_same",
    "Verif.Files.C125_alone",
    "Verif.Files.C125_flatten_partial",
    "Verif.Files.C125_inplace_violated"
   ],
   "note": "If the output directory is apart from the input directories and names have no slash; different path names are taken as different files. All options but -s (C150); the revision put in by --revid or -g is a parameter that depends on the locale only. Violated if the files are flattened in place: a process may read a file that another one has just emptied."
  },
  {
   "property": "C126",
   "status": "partial",
   "theorems": [
    "Verif.Files.C126_locales",
    "Verif.Files.C126_import_partial",
    "Verif.Files.C126_removal_partial",
    "Verif.Files.C126_references_partial",
    "Verif.Files.C126_silent_violated",
    "Verif.Files.C126_elsewhere_violated",
    "Verif.Files.C126_references_violated",
    "Verif.Files.C126_sources",
    "Verif.Files.C126_silent_all_violated",
    "Verif.Files.C126_elsewhere_all_violated",
    "Verif.Files.C126_references_all_violated"
   ],
   "note": "If the two directories are apart and file names have no slash. Removal: of files in the directory of their first letter. References: for locales with one document. Violated: a locale that fails is not reported and keeps its old file; a file in another directory is not removed; with two documents the references of the first stay. For every locale with a document that cannot be read and every order of the processes (C126_silent_all_violated), and for every file outside the directory of its letter (C126_elsewhere_all_violated). With two documents or more an attribute references of the first always stays: C126_references_all_violated."
  },
  {
   "property": "C127",
   "status": "partial",
   "theorems": [
    "Verif.Collation.C127_after_partial",
    "Verif.Collation.C127_whole_base_partial",
    "Verif.Collation.C127_chain_partial",
    "Verif.Collation.C127_chain_violated",
    "Verif.Collation.C127_primary_violated",
    "Verif.Collation.C127_shared_violated",
    "Verif.Collation.C127_own_start_violated",
    "Verif.Collation.C127_later_entry_violated"
   ],
   "note": "The entry itself: proved for entries without before whose expansion has no entries in it. The chain: proved if the expansion sorts before the base, refuted for every case in which it sorts after a base with one primary weight. Exact arithmetic."
  },
  {
   "property": "C128",
   "status": "partial",
   "theorems": [
    "Verif.Keymans.C128_added_partial",
    "Verif.Keymans.C128_again_partial",
    "Verif.Keymans.C128_dryrun",
    "Verif.Keymans.C128_report_violated",
    "Verif.Keymans.C128_plain_violated",
    "Verif.Keymans.C128_bad",
    "Verif.Keymans.C128_fields",
    "Verif.Keymans.C128_columns"
   ],
   "note": "Proved for identifiers without `/`, `]` and line end and for documents in which id and type distinguish sil:kbd elements (or no drafts are used). Refuted: the report raises ValueError for every list with a language. Loading and saving of a document is taken as exact."
  },
  {
   "property": "C129",
   "status": "partial",
   "theorems": [
    "Verif.Keyboard.C129_counted",
    "Verif.Keyboard.C129_status_partial",
    "Verif.Keyboard.C129_status_violated",
    "Verif.Keyboard.C129_silent_violated",
    "Verif.Keyboard.C129_empty_violated",
    "Verif.Keyboard.C129_right_violated",
    "Verif.Keyboard.C129_names"
   ],
   "note": "The count of failures is proved for every test file. Refuted: 256 failures give status zero; a key whose event expects no text is not typed; an empty text cannot be expected; keys with the right control key or AltGr give nothing on every keyboard."
  },
  {
   "property": "C130",
   "status": "partial",
   "theorems": [
    "Verif.Ldml.C130_found",
    "Verif.Ldml.C130_text_partial",
    "Verif.Ldml.C130_descendants_violated",
    "Verif.Ldml.C130_example_violated"
   ],
   "note": "Proved for all documents and all steps; the text of a path for steps without special characters and without a prefix in the name of an attribute. Refuted for all documents: a path with `//` finds nothing."
  },
  {
   "property": "C131",
   "status": "partial",
   "theorems": [
    "Verif.Autonames.C131_names_violated"
   ],
   "note": "Refuted for all directories: no file is ever changed, for the identity is looked up with `.//`, which finds nothing (C130). So names that are there are kept, and none is filled in."
  },
  {
   "property": "C132",
   "status": "partial",
   "theorems": [
    "Verif.Coverage.C132_rows_partial",
    "Verif.Coverage.C132_paths",
    "Verif.Coverage.C132_currency_partial",
    "Verif.Coverage.C132_compact_violated",
    "Verif.Coverage.C132_source_violated",
    "Verif.Coverage.C132_level_violated",
    "Verif.Coverage.C132_calendar_violated",
    "Verif.Coverage.C132_variables",
    "Verif.Coverage.C132_targets",
    "Verif.Coverage.C132_read_variables",
    "Verif.Coverage.C132_levels",
    "Verif.Coverage.C132_meets",
    "Verif.Coverage.C132_calendars",
    "Verif.Coverage.C132_regions"
   ],
   "note": "Proved for every report that is made, in exact arithmetic and with regular expressions as a parameter; currencies for complete dates. Refuted: the source is never given; with --level there is never a report; a requirement on calendars raises for every region with one calendar; a file without white space before its first element has one path only. What is read from the two supplemental files (variables, levels, calendars, currencies) is stated exactly (C132_read_variables, C132_levels, C132_calendars, C132_regions)."
  },
  {
   "property": "C133",
   "status": "partial",
   "theorems": [
    "Verif.Fixsldr.C133_document_partial",
    "Verif.Fixsldr.C133_renamed",
    "Verif.Fixsldr.C133_names",
    "Verif.Fixsldr.C133_files_partial",
    "Verif.Fixsldr.C133_single_partial",
    "Verif.Fixsldr.C133_single_stops",
    "Verif.Fixsldr.C133_layout_violated",
    "Verif.Fixsldr.C133_single_violated",
    "Verif.Fixsldr.C133_dirs_violated",
    "Verif.Fixsldr.C133_region_violated",
    "Verif.Fixsldr.C133_lost_violated",
    "Verif.Fixsldr.C133_variant_violated"
   ],
   "note": "The new document is given exactly for every document with at most one of each element; reading, normalise and writing are parameters. Refuted: without `layout` or `sil:identity` the new element cannot be made (TypeError), and with several processes the file is left out in silence; with --single the rest is not done; two directories with the same names; the code of Guinea; unknown regions are lost; names with variants."
  },
  {
   "property": "C134",
   "status": "partial",
   "theorems": [
    "Verif.AddFonts.Css.C134_fonts",
    "Verif.AddFonts.Css.C134_features",
    "Verif.AddFonts.Css.C134_report",
    "Verif.AddFonts.Css.C134_mixed_violated",
    "Verif.AddFonts.Css.C134_ignored_violated",
    "Verif.AddFonts.Css.C134_selectors_violated",
    "Verif.AddFonts.Css.C134_locale",
    "Verif.AddFonts.Css.C134_feature",
    "Verif.AddFonts.Css.C134_ignored_all_violated",
    "Verif.AddFonts.Css.C134_mixed_all_violated",
    "Verif.AddFonts.Css.C134_selectors_all_violated"
   ],
   "note": "Fonts, features and the report are proved for every stylesheet. Refuted: fonts of one rule are joined with features of another rule of the same tag; ignored fonts imply features; a rule with several selectors is for no locale. All three for every stylesheet of the kind: C134_*_all_violated."
  },
  {
   "property": "C135",
   "status": "partial",
   "theorems": [
    "Verif.Files.Normal.C135_files_partial",
    "Verif.Files.Normal.C135_again_partial",
    "Verif.Files.Normal.C135_one",
    "Verif.Files.Normal.C135_other_violated",
    "Verif.Files.Normal.C135_validate_violated",
    "Verif.Files.Normal.C135_dirs_violated",
    "Verif.Files.Normal.C135_xml",
    "Verif.Files.Normal.C135_twice_partial",
    "Verif.Files.Normal.C135_grows_violated",
    "Verif.Files.Normal.C135_third_partial"
   ],
   "note": "Proved for directories with XML files and directories only, output directories that are apart and have the same subdirectories, without --validate; loading and saving are parameters (C15, C24). Refuted: a file that is not XML ends the script before anything is done (for every such directory); --validate looks at the input file, and the first one that is not valid ends the script; a subdirectory missing in the output directory ends it. A second run is proved to change nothing for the loading and saving of Ldml itself, from characters to characters (C135_twice_partial), under the guards of C24_file_drafts_partial; an alternate within an element with alt is renamed with each run. C135_third_partial: a third run changes nothing under weaker guards, that allow duplicates and drafts that the first run takes away."
  },
  {
   "property": "C136",
   "status": "partial",
   "theorems": [
    "Verif.Break.C136_success",
    "Verif.Break.C136_rules",
    "Verif.Break.C136_again_violated",
    "Verif.Break.C136_names_violated",
    "Verif.Break.C136_options_violated"
   ],
   "note": "Proved: exactly when there are rules, and what they are, for every topological sorter that does what graphlib documents (there is one: exists_topo). Refuted: a variable defined again by means of its old value, the idiom of the CLDR, raises CycleError; a variable with a digit or underscore in its name cannot be used by another one; --noflatten does nothing; a missing segmentation raises TypeError."
  },
  {
   "property": "C137",
   "status": "partial",
   "theorems": [
    "Verif.Break.C137_kept",
    "Verif.Break.C137_breaks_partial",
    "Verif.Break.C137_output",
    "Verif.Break.C137_astral_violated",
    "Verif.Break.C137_bar_violated"
   ],
   "note": "Nothing is lost: full. The places: for lines with characters below U+10000; refuted for every line that starts with another one and a break after it. A bar in a line cannot be told from a break: witness."
  },
  {
   "property": "C138",
   "status": "partial",
   "theorems": [
    "Verif.Keyboard.C138_plain",
    "Verif.Keyboard.C138_both_partial",
    "Verif.Keyboard.C138_match",
    "Verif.Keyboard.C138_one_violated",
    "Verif.Keyboard.C138_text_violated",
    "Verif.Keyboard.C138_product_violated",
    "Verif.Keyboard.C138_fallback_violated"
   ],
   "note": "Proved: transforms without contexts; which contexts are used with both; the choice among contexts. Refuted: with one context only, or with a plain text as a context, nothing is added at all (for every rule and transform); of `before` one text is used; a rule with contexts hides one without."
  },
  {
   "property": "C139",
   "status": "partial",
   "theorems": [
    "Verif.Merge.C139_table",
    "Verif.Merge.C139_parents_partial",
    "Verif.Merge.C139_fallback_violated",
    "Verif.Merge.C139_first"
   ],
   "note": "Proved for every supplemental file and every document without fallback element. Refuted for every document with one: `fall.split()` on an element raises."
  },
  {
   "property": "C140",
   "status": "partial",
   "theorems": [
    "Verif.Comments.C140_directive",
    "Verif.Comments.C140_result_partial",
    "Verif.Comments.C140_early_violated",
    "Verif.Comments.C140_reverse_violated",
    "Verif.Comments.C140_inner_violated"
   ],
   "note": "Proved: which comments are directives and what they give (equivalence with the regular expression); the result for every document in which no directive precedes all end tags. Refuted: such a directive raises, in every document; -r does nothing; a directive at the start of an element goes to the element before that one."
  },
  {
   "property": "C141",
   "status": "partial",
   "theorems": [
    "Verif.Collation.C141_order",
    "Verif.Collation.C141_reads_partial",
    "Verif.Collation.C141_minimised",
    "Verif.Collation.C141_alphabet_violated",
    "Verif.Collation.C141_dot_violated",
    "Verif.Collation.C141_nodot"
   ],
   "note": "Proved: the order, what --alphabet leaves, and that the text reads as the same rules where C94 applies. Refuted for all inputs: --adddot raises whenever there is a string it is for; what is in --alphabet does not matter."
  },
  {
   "property": "C142",
   "status": "partial",
   "theorems": [
    "Verif.Hack.C142_lines_partial",
    "Verif.Hack.C142_kept",
    "Verif.Hack.C142_inplace_violated",
    "Verif.Hack.C142_missing_violated",
    "Verif.Hack.C142_twice_violated",
    "Verif.Hack.C142_last_violated",
    "Verif.Hack.C142_unfinished_violated"
   ],
   "note": "Proved for two files of which the first ends with a line feed. Refuted for all files: in place the file is emptied; without an input the output is emptied; a second run adds the lines again; an unfinished last line is joined with the addition."
  },
  {
   "property": "C143",
   "status": "partial",
   "theorems": [
    "Verif.Collation.C143_rounded_partial",
    "Verif.Collation.C143_mixed_partial",
    "Verif.Collation.C143_expansion_partial",
    "Verif.Collation.C143_expansion_violated"
   ],
   "note": "For any monotone rounding that is exact on 53 bits. Entries with an expansion may be in the tailoring and stay in place too; what follows them does not (refuted, as C61). With `before`, bases with weights at all levels (C95_ignorable_violated)."
  },
  {
   "property": "C144",
   "status": "proved",
   "theorems": [
    "Verif.Xml.Parser.C144_events",
    "Verif.Xml.Parser.C144_names",
    "Verif.Xml.Parser.C144_tree"
   ],
   "note": "What expat calls is the input; the table of entities is empty, as nothing in the repository fills it."
  },
  {
   "property": "C145",
   "status": "partial",
   "theorems": [
    "Verif.Merge.Command.C145_written_partial",
    "Verif.Merge.Command.C145_only_output",
    "Verif.Merge.Command.C145_git_violated",
    "Verif.Merge.Command.C145_stdout_violated",
    "Verif.Merge.Command.C145_verbose_violated",
    "Verif.Merge.Command.C145_lost_violated",
    "Verif.Merge.Command.C145_parents_violated"
   ],
   "note": "The merge, the sorting and the writing are parameters (C28-C36, C18-C24, C14-C16 have them). Holds with -o and without -g. With -d the parents of the supplemental data are never used: refuted for all tables."
  },
  {
   "property": "C146",
   "status": "partial",
   "theorems": [
    "Verif.Hunspell.C146_hunspell_violated",
    "Verif.Hunspell.C146_dic_violated",
    "Verif.Hunspell.C146_number"
   ],
   "note": "Nothing can be read but an empty list of words, so there is nothing left to prove of the rest."
  },
  {
   "property": "C147",
   "status": "partial",
   "theorems": [
    "Verif.Sheet.C147_roundtrip_partial",
    "Verif.Sheet.C147_empty_template_partial",
    "Verif.Sheet.C147_textless_violated",
    "Verif.Sheet.C147_short_violated"
   ],
   "note": "Missing: templates with a repeated cell that has a text, with markup in a cell or with a cell repeated ten times or more before a value (C55, C76), rows without a cell for the value, elements without a text. For the last two the claim is refuted."
  },
  {
   "property": "C148",
   "status": "partial",
   "theorems": [
    "Verif.Sheet.C148_one_output",
    "Verif.Sheet.C148_inputs_kept",
    "Verif.Sheet.C148_empty_output_violated"
   ],
   "note": "Proved for all arguments, with -o '' being no -o. Refuted for -o with an empty name as the user means it: the LDML file is overwritten."
  },
  {
   "property": "C149",
   "status": "partial",
   "theorems": [
    "Verif.Merge.C149_stored",
    "Verif.Merge.C149_left_out",
    "Verif.Merge.C149_inherited_violated",
    "Verif.Merge.C149_inherited_all_violated"
   ],
   "note": "Proved: no stub is stored, and exactly what is left out. Refuted: a locale whose own file is a stub is left out although its flattened document is not one. For all stubs: C149_inherited_all_violated."
  },
  {
   "property": "C150",
   "status": "partial",
   "theorems": [
    "Verif.Merge.C150_same_partial",
    "Verif.Merge.C150_empty_violated",
    "Verif.Merge.C150_import_violated"
   ],
   "note": "Holds if no tailoring of the document is empty or imports another one. Empty ones raise with -s for all documents; imports: a witness."
  },
  {
   "property": "C151",
   "status": "partial",
   "theorems": [
    "Verif.Merge.C151_imports_partial",
    "Verif.Merge.C151_names_violated",
    "Verif.Merge.C151_suffix_violated",
    "Verif.Merge.C151_region_violated",
    "Verif.Merge.C151_names_all_violated",
    "Verif.Merge.C151_region_all_violated",
    "Verif.Merge.C151_suffix_all_violated"
   ],
   "note": "For imports without region, of types known by a name that the code translates (phonebk) or by their full name, that do not come back to themselves, with paired brackets and within Python's recursion limit (a parameter); and if no imported language's name is the end of the name of the file. The three violations are witnesses. For all inputs of a kind: C151_names_all_violated, C151_region_all_violated, C151_suffix_all_violated."
  },
  {
   "property": "C152",
   "status": "partial",
   "theorems": [
    "Verif.Files.FlattenRun.C152_reported_partial",
    "Verif.Files.FlattenRun.C152_single_partial",
    "Verif.Files.FlattenRun.C152_stored",
    "Verif.Files.FlattenRun.C152_skipped_violated",
    "Verif.Files.FlattenRun.C152_single_violated",
    "Verif.Files.FlattenRun.C152_git_violated",
    "Verif.Files.FlattenRun.C152_outdir_violated"
   ],
   "note": "Flattening, the setting of the revision and printing are parameters (C34, C35, C149-C151, C125 have them). Exceptions in the storing of a document are not caught: violated for all inputs of the kinds named."
  },
  {
   "property": "C153",
   "status": "partial",
   "theorems": [
    "Verif.Keyboard.C153_syllables_partial",
    "Verif.Keyboard.C153_bases_violated",
    "Verif.Keyboard.C153_codes"
   ],
   "note": "For rule sets without tertiary orders, whenever the layer does not raise (C71_no_base_violated says when it does). Refuted for all prebase characters of an order above 0 and all pairs of bases. No keyboard with such rules can be loaded (C40). C153_codes says that the orders and the marks of prebase characters are those in the attributes of the rule that fits."
  },
  {
   "property": "C154",
   "status": "partial",
   "theorems": [
    "Verif.AddFonts.Run.C154_done",
    "Verif.AddFonts.Run.C154_stopped",
    "Verif.AddFonts.Run.C154_ends",
    "Verif.AddFonts.Run.C154_locale",
    "Verif.AddFonts.Run.C154_stylesheet_violated",
    "Verif.AddFonts.Run.C154_addresses_violated",
    "Verif.AddFonts.Run.C154_unreadable_violated",
    "Verif.AddFonts.Run.C154_hidden"
   ],
   "note": "Proved for networks that answer the same each time, and with the search for addresses, the features of the stylesheet that are changed in place and every kind of stop in the model. Refuted for all inputs of three kinds. Reading and saving a document is taken as exact (C15)."
  },
  {
   "property": "C155",
   "status": "proved",
   "theorems": [
    "Verif.Merge.C155_modes",
    "Verif.Merge.C155_copy",
    "Verif.Merge.C155_aliases"
   ],
   "note": "Full. Overlay and difference are those of C28 and C29, resolve_aliases is that of C114 and a parameter here."
  },
  {
   "property": "C156",
   "status": "partial",
   "theorems": [
    "Verif.Sheet.C156_sheets_partial",
    "Verif.Sheet.C156_blank_separates",
    "Verif.Sheet.C156_others",
    "Verif.Sheet.C156_runs_on_violated",
    "Verif.Sheet.C156_witness_violated"
   ],
   "note": "Proved for all workbooks whose sheets end with an empty row. Refuted otherwise, for every table of one dimension at the end of a sheet. Export uses the same rows (C147)."
  },
  {
   "property": "C157",
   "status": "partial",
   "theorems": [
    "Verif.Sheet.C157_same_partial",
    "Verif.Sheet.C157_texts_only",
    "Verif.Sheet.C157_empty_line_violated",
    "Verif.Sheet.C157_run_violated"
   ],
   "note": "Proved if runs of ten or more cells are at the ends of rows and empty lines are short in both or in neither, and if both can be processed. Refuted otherwise. The csv module is taken as given."
  },
  {
   "property": "C158",
   "status": "partial",
   "theorems": [
    "Verif.Ldml.C158_found_partial",
    "Verif.Ldml.C158_again_partial",
    "Verif.Ldml.C158_raises_violated",
    "Verif.Ldml.C158_second_violated"
   ],
   "note": "Holds as long as no element at the path has alternates (C158_found_partial) and the text is not a second one (C158_again_partial). Where an element has an alternate the call ends with AttributeError for all texts and drafts (C158_raises_violated); the first call that adds a second text to a document with drafts makes every later call do so (C158_second_violated)."
  },
  {
   "property": "C159",
   "status": "partial",
   "theorems": [
    "Verif.Ldml.C159_draft_partial",
    "Verif.Ldml.C159_alt_partial",
    "Verif.Ldml.C159_better_violated",
    "Verif.Ldml.C159_made_violated",
    "Verif.Ldml.C159_promoted_violated"
   ],
   "note": "With 'draft' it holds unless the name is that of a better alternate; then that alternate is returned although it does not have the draft (C159_better_violated). With 'alt' and 'both' it holds where the new value becomes an alternate (C159_alt_partial); it is not found again if it was the first at the path (C159_made_violated) or took the place of a worse one (C159_promoted_violated)."
  },
  {
   "property": "C160",
   "status": "partial",
   "theorems": [
    "Verif.Comments.C160_read_partial",
    "Verif.Comments.C160_mixed_violated",
    "Verif.Comments.C160_xml_violated",
    "Verif.Comments.C160_default_violated",
    "Verif.Comments.C160_prefix_violated",
    "Verif.Comments.C160_attribute_violated"
   ],
   "note": "At the level of characters: the text that is written is read by the model of expat. Holds where no prefix has two uris, elements without namespace and a default namespace do not come together, attributes are not in the namespace of xml, and there is no text beside children. Each of these is needed: text beside children is never written (C160_mixed_violated), xml:lang and the like lose their namespace (C160_xml_violated), and the rest is shown by a document each."
  },
  {
   "property": "C161",
   "status": "partial",
   "theorems": [
    "Verif.Xml.C161_read_back_partial",
    "Verif.Xml.C161_again_violated",
    "Verif.Xml.C161_mixed_violated"
   ],
   "note": "Proved at the level of characters for all documents with names and texts as in C15, after any saves without topns of documents with no namespace in the outermost element and in the tags of its children, which is the usual form of LDML. The guard on earlier saves is needed: a document with such a namespace that is saved twice (C161_again_violated), and any save with topns before one without (C161_mixed_violated), leave a text that cannot be read, because the default value of the parameter namespaces is shared."
  },
  {
   "property": "C162",
   "status": "proved",
   "theorems": [
    "Verif.Ldml.C162_sets",
    "Verif.Ldml.C162_again"
   ],
   "note": "Full. The model of ensure_path is that of C22, here for a path without predicates, for which its guards hold always."
  },
  {
   "property": "C163",
   "status": "partial",
   "theorems": [
    "Verif.Collation.Old.C163_reduced_partial",
    "Verif.Collation.Old.C163_direct_partial",
    "Verif.Collation.Old.C163_order_violated",
    "Verif.Collation.Old.C163_identity_violated"
   ],
   "note": "What is kept and why an entry goes, for all collations; exactly which go where the base has no entry. The order of the strings is not kept, and a rule with `=` raises."
  },
  {
   "property": "C164",
   "status": "partial",
   "theorems": [
    "Verif.Collation.Old.C164_next_partial",
    "Verif.Collation.Old.C164_skipped_violated",
    "Verif.Collation.Old.C164_empty_violated"
   ],
   "note": "Proved for a letter of the list. For another letter the search forward misses the one it should give; an empty list raises."
  },
  {
   "property": "C165",
   "status": "partial",
   "theorems": [
    "Verif.Keyboard.C165_line_partial",
    "Verif.Keyboard.C165_no_key_violated",
    "Verif.Keyboard.C165_test_violated"
   ],
   "note": "Every line whose brackets all hold a key. Empty brackets raise IndexError, and the test command never writes a result."
  },
  {
   "property": "C166",
   "status": "partial",
   "theorems": [
    "Verif.Langtags.C166_files_partial",
    "Verif.Langtags.C166_lines",
    "Verif.Langtags.C166_language_violated",
    "Verif.Langtags.C166_extended_violated",
    "Verif.Langtags.C166_order_violated"
   ],
   "note": "Lines of the table and of files with more than a language in their name, for all tables and orders. A file of a language alone is never looked at, a file of an extended language with a script stops the program, and the list depends on the order of a set."
  },
  {
   "property": "C167",
   "status": "partial",
   "theorems": [
    "Verif.Merge.C167_alike_partial",
    "Verif.Merge.C167_deep_all_violated",
    "Verif.Merge.C167_changed_all_violated",
    "Verif.Merge.C167_plain_all_violated",
    "Verif.Merge.C167_recursion_all_violated",
    "Verif.Merge.C167_plain_exact"
   ],
   "note": "For documents that are the same but for their comments the result is exact: the root and its children get the comments, nothing below them does (C167_alike_partial, C167_deep_all_violated). For a child that all three have differently, or that the base lacks and the others have alike, the option is ignored (C167_changed_all_violated), as it always is without drafts (C167_plain_all_violated). The alignment of children is a parameter; noteStep_step shows that comments stay or go with their elements. Without drafts it is said exactly which comments each child of the result has, and in which order they come (C167_plain_exact)."
  },
  {
   "property": "C168",
   "status": "partial",
   "theorems": [
    "Verif.Files.Hg.C168_without_partial",
    "Verif.Files.Hg.C168_hg_all_violated",
    "Verif.Files.Hg.C168_removed_all_violated",
    "Verif.Files.Hg.C168_single_all_violated"
   ],
   "note": "Violated for all inputs: what hg says is bytes, and splitting them with a text raises. With several processes nothing is written and nothing is reported, and with -r the files of other locales are removed all the same; with -s the first locale with a document ends the run. Proved without --hg only."
  }
 ]
}