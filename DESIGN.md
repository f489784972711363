# Formal model of silnrsi/sldrtools: design

The model is in Lean 4 (4.33.0), under `lean/Verif/`. Nothing in `/repo` is run;
the code was read as text and transcribed function by function.

## Conventions

* A Python `str` is `List Char` (abbreviated `Str`). Lone surrogates are not
  represented: they cannot occur in XML text, and an escape that would make one
  is an error in the model.
* A Python exception is a value of `Except PyErr`. A branch of the code which
  raises raises in the model.
* Dictionaries are association lists in insertion order (what CPython does);
  sets are lists considered up to membership, or `Finset`-free predicates.
* Loops over a shrinking string or a growing index are structural or
  well-founded recursion. No fuel is used where the code always ends; where the
  code can diverge the model carries fuel and the theorem says when enough fuel
  exists, or the divergence is proved.
* Things the code takes from outside (ICU character properties, `unicodedata`,
  Python's string hash, file system, language tag lookup, `difflib`) are
  parameters of the model, universally quantified in the theorems.
* `Verif/<Area>/Model.lean` has the definitions with file and line citations,
  `Spec.lean` (or a section "Specification") the independent vocabulary of the
  claims, `Lemmas.lean` the helper lemmas, `Props.lean` the property theorems
  with non-vacuity examples.
* When the code violates the property, the violation is proved on a concrete
  witness (`theorem ..._violated`), the property is proved under the exact
  guard with suffix `_partial`, and the finding is listed below.

## Plan per property

| id | model | proof |
|---|---|---|
| C01 | list2us, us2list, parse, parseitem (char lists) | induction on the list of strings; the parser on each escaped item consumes exactly that item; guard: no blank, no backslash |
| C02 | same | parseitem/parse are total Lean functions (termination proof) and return a strictly greater index |
| C03 | parseitem range branch | direct computation + induction on plain characters |
| C04 | flatten odometer | refinement to mixed-radix counter |
| C05 | _escape_using_hex, hexescre | hex digit round trip on Nat |
| C06 | collation.escape/unescape | induction on the string |
| C07, C08 | SortKey, diffLevel, stripzero | lexicographic order theory |
| C09 | ducetSortKey | refinement to a greedy segmentation relation |
| C10 | Collation.parse insertion loop | invariant over insertions |
| C11 | itemise | induction |
| C12 | minimise | loop invariant: sublist |
| C13 | readDucet line reader | induction over lines |
| C14 | _protect | induction on the string |
| C15 | ETWriter.serialize_xml + independent reader | mutual induction on trees |
| C16 | serialize_xml with the shared dictionary as state | invariants over histories |
| C17 | localns, reverse_localns, _localisens | string substitution lemmas |
| C18 | _minhash, _calc_hashes | permutation invariance, induction on trees |
| C19-C21 | draft handling and alternates | case analysis and induction over additions |
| C22, C23 | ensure_path, _unify_path, remove_path, find | induction over path and tree |
| C24, C25 | normalise | sorting theory, induction on trees |
| C26 | TreeBuilder | simulation: builder on events of a tree |
| C27 | flatten_collation | well-founded recursion on acyclic import rank |
| C28-C30 | overlay, difference | mutual induction on trees; for external resources a closed form of the loop over types, and a condition on both trees that is preserved by each step |
| C31-C33 | merge, _align | mutual induction on trees |
| C34, C35, C57 | flattenlocale fallback chain | well-founded recursion, state invariant |
| C36 | _arrayDict | refinement to multimap |
| C37-C41 | Keyboard, Rules, Context | induction over key sequences and tries |
| C42-C45 | Exemplars.process, analyze, split_exemplar, parcel_frequency | induction, potential function for termination |
| C46-C51 | LangTag, powerset, LangTags | case analysis and induction |
| C52 | find_parents | well-founded measure |
| C53 | ducetCompare | case analysis over list comparison |
| C54 | Iana.parse | induction over lines |
| C55 | _writeodsitem | refinement to expanded row |
| C56 | IterDict | direct |
| C58 | CollElement.expand | induction over prefix lengths |
| C59 | keyfn | counterexample: the order is reversed |
| C60, C61 | _setSortKeys and sortkey over rationals; the theorems are for collations without expansions | invariant over the entries in order |
| C62 | save_as with drafts: alternates attached and detached | induction over the saves of a session |
| C63 | comments in Ldml.__init__ | simulation: builder with and without comments |
| C64 | as_xpath and _process_path as text | string lemmas, induction over the way to the element |
| C65 | return value of merge | cases of the model of merge; witnesses |
| C66 | merge without drafts, as a function of the three documents | mutual induction on trees; aligned positions are characterised first |
| C67, C68 | get_parent_locales, the `changed` filter of flattenlocale | case analysis over the chain; witnesses |
| C69 | unflatten loop of flattenlocale | C34_unflatten gives the exact effect; induction over the place where something is common shows that nothing of the first parent is left; what it lacks stays, for all documents; witness |
| C70 | _process_backspace and Context | invariant over key sequences; for the violation, every keyboard |
| C71 | _process_reorder, _sort | permutation invariant over the scan |
| C72 | parse_modifiers | direct, for every optional modifier / every two alternatives |
| C73 | readAlltags | invariant over the lines |
| C74 | LangTag.analyse with the table as a function | case analysis; the bound on recursion is proved harmless |
| C75 | merge_equivalent | case analysis |
| C76 | _odssetup row reading | induction over cells against an expanded row |
| C77, C78 | Sheet.process and its actions | simulation: the same cells are visited by import and export |
| C79 | find_parents without flags | invariant: the accept test is constantly false |
| C80 | multigraph search in process | induction downwards over lengths |
| C81 | the five split criteria of analyze | after the last round no criterion applies: fixed point |
| C82 | the whole of analyze, as multisets of characters | invariants through every phase |
| C83, C84, C87, C88 | save_graphemes, make_index, _get_script, find_non_casing_characters | sorting theory, induction |
| C85, C86 | parcel_ignorable, repeated analyze | induction; witnesses |
| C89, C90 | minimise | termination measure over the tree of bases; witness |
| C91 | hexescre, struni | grammar of hex escapes as a relation |
| C92 | parseitem operators | computation for plain characters; violations shown for all operands by running the loop symbolically |
| C93 | parse of several sets and literals | induction over the pieces |
| C94 | asICU, and parse of what it writes | invariant: the state of the writer is the state of the reader; witnesses |
| C95 | sortkey of entries with before | lower bound on all weights as an invariant |
| C96 | convertSimple up to the call of _insertBefore | induction over lines, groups and items against a relation of what a group means |
| C97 | convertSimple with _insertBefore and the keys | invariant along the chain of bases; bound on the sum of increments |
| C98 | asSimple after convertSimple | invariant: the tree is the lines read so far; witnesses |
| C99 | ldml_read, ldml_write, on C01 | induction over the list; normal forms and collator as parameters; witnesses |
| C100 | ReadDTD, order of normalise and _sortedattrs | numbering of names by induction; digits of the same width compare as numbers; witness |
| C101 | ReadDTD, distinguishing items of ReadMetadata, _distattributes | membership in the sets by induction over declarations and items; witnesses |
| C102 | readIana with the table (Langtags/Registry) | invariant over records: what is read, finished and pending; the table by induction over additions of tags that share no text; witnesses |
| C103 | readLikelySubtags with analyse and add (Langtags/Likely) | invariant: each text of the table says nothing that its tag does not say, texts have one meaning; for a language alone, who else touches its text; witnesses |
| C104 | one row of readExtras | the same lemmas; witness |
| C105 | `LangTag.__str__` against `allforms` | through the full form of a tag; witness |
| C106 | readSupplementalData, from the parsed elements on | invariant over the loop, on top of the lemmas for C103; witness |
| C107 | generate_alltags, the printing of the list (without the tags added for files that have no entry) and readAlltags | the words of a written line are the forms; induction over the lines; sorting with an antisymmetric key; witnesses |
| C108 | Templater.process, processattrib, xpath and asstr, over any XPath evaluator; the data is another document than the template | induction over the tree of the template; witnesses |
| C109 | the same | inversion of one step; C56 for the iteration variables; witness |
| C110 | _merge_alts | the result is computed name by name; case analysis; witnesses |
| C111 | scripts/zonetab: the regular expression with its backtracking, latlongdeg in seconds of arc | the ways of matching are listed in their order; the first is the one meant; exact error for negative angles |
| C112 | ReadTZData, normalise | the ranks of C100 |
| C113 | scripts/zonetab: results, the sorted output | the dictionary has what was last said; the order is total; C112 |
| C114 | resolve_aliases, _copynode on a table of objects | invariant of a step (only aliases are lost, new elements are clean); induction on calls; for the end, ranks of elements |
| C115 | scripts/fontrules treerules; trees as an inductive type | induction on the tree |
| C116 | simplerules, the rules of the file | invariant over the leaves: patterns with at most one list; a merge is a union |
| C117 | scripts/fontmatch match1, the order of the rules, fontid | C116; the sorted list; witnesses |
| C118 | scripts/sldraddfonts read_font_data, find_fonts_from_csv; the tag lookup is a parameter | induction over the rows; what the loop over regions sets |
| C119 | write_font_data; the fonts of a file are a list of records, set order is a permutation | induction over the fonts, for each name separately; witnesses |
| C120 | find_url_from_fontname, build_url_from_fontname; the network is an oracle that sees the history | the cache only grows; induction over histories |
| C121 | xmltemplate.py fn_firstword, fn_findsep, fn_split, fn_default, fn_choose, fn_doc; XPath values are an inductive type | words against an independent relation of words and spaces; induction over the values |
| C122 | ldml_merge.py merge, _merge_with_alts, _add_alt with drafts; an exception is `none` | equality with the plain merge; induction on the depth; witnesses and general theorems for the exceptions |
| C123 | the same | alignment by key (C66); a table of decisions; the loop and the head separately; witnesses |
| C124 | ldml.py getldml, iterate_files; ldml_merge.py getldml; ldmlmerge find_ldml; the list of locales of ldmlflatten and sldrcoverage; whether there is a file is a parameter | equality with the first of a list of places; induction on the tree; witnesses |
| C125 | ldmlflatten doit as a program that reads, reads, ..., and writes in pieces; a pool of tasks; a schedule is any list of tasks | an invariant of all reachable states; a refinement of flattenlocale by the stepwise program; a witness schedule |
| C126 | cldrimport: the lists of locales, doit as a program of a pool, the removal; normalise, the identity and lookup are parameters | the invariant of C125; induction on the files of a locale and on the document; witnesses |
| C127 | expand, sortkey and _setSortKeys with expansions, the short keys with the lists they share | list lemmas on weights in the middle of a key; invariant over the entries; witnesses |
| C128 | the whole of sldraddkeymans on a table of documents; ensure_path on the text of the path | invariant over the languages; texts found by the path before and after each step |
| C129 | kbdtest on the keyboard model of C37-C41 | the script of a test file as a relation; induction over the events; invariant over loading for the modifiers |
| C130 | find and findall on the path model of C22 and C64 | a relation between steps, element and position; induction over the steps; lexicographic order of positions |
| C131 | the whole of sldrautonames | refuted for all files by C130 |
| C132 | the whole of sldrcoverage after the reading of its options; regular expressions are a parameter | counting lemmas over levels and requirements; sortedness; mutual induction over the tree for the paths |
| C133 | the whole of fixsldr between reading and normalise, and the pool | each step as a change of all children of a name; composition; the pool invariant of C125 |
| C134 | sldraddfonts: the reading of a stylesheet, as a list of rules, and the report | induction on the rules with the last one that counts; witnesses |
| C135 | ldmlnormalize: listing, loop and files | induction on the listing and on the files, paths by their last slash; witnesses |
| C136 | icubreaktext: variables, order, rules | induction on the variables and rules; the sorter as a parameter with its documented behaviour, shown to exist; refutations for all segmentations of a kind |
| C137 | icubreaktext: the pieces of a line | induction on the breaks; lengths in UTF-16 |
| C138 | Rule.merge with the generators of UnicodeSets.flatten | induction on what is yielded; refutations for all rules and transforms |
| C139 | ReadSupplementalData and get_parent_locales | induction on the parentLocale elements and on the locales in them; refutation for all documents with fallback |
| C140 | proccldrcomments parse and _proc_comment as a machine over events | simulation: the events of a tree against its end tags and comments; regular expression as an equivalence |
| C141 | icupretty over parse, minimise and asICU | orders of parsed entries increase, so sorting is the identity; C94 |
| C142 | hackldmlattribs with files by name | induction on lines; order of opening the files |
| C143 | the sort keys of entries without expansion with every sum and quotient rounded | error bound from monotony and exactness; invariant with the counts of raised and lowered entries |
| C144 | XMLParser: the handlers for expat, the memo of names, the document type declaration, the comment handler of Ldml | invariant that the memo is right; the names are injective |
| C145 | scripts/ldmlmerge as a function of command line, files and git | case analysis over all inputs; equivalence with a specification of success |
| C146 | the constructors of hunspell.py up to the exception | case analysis over all files |
| C147 | the whole export over the cells of a template (fillOne, fillRow, fillTable, exportRows) beside the import of C78 | strong induction over the rows: the filled row has the same length, the same name and the same key as that of the template, so that the import takes the same branches; then by columns |
| C148 | the command line of sheetldml as a list of uses of files with an ending | cases |
| C149 | ldml_merge.py 386-476 with all options, Merge/Options | case analysis on flattenlocale with and without the option; a witness for the violation |
| C150 | the same | without imports the text of each tailoring is a fixed point of flatten_collation; putting the same texts back changes nothing |
| C151 | the same with getCollator, on the model of flatten_collation of C27 | induction on the depth of the imports; the recursion limit is a parameter |
| C152 | scripts/ldmlflatten 68-146, Files/FlattenRun | induction on the list of locales; the disk is a function of paths |
| C153 | ldml_keyboard.py 193-279, as for C71 | an invariant of the scan: the finished syllables, the shape of the one at hand and its keys; stable sorting by a pairwise order |
| C154 | sldraddfonts 23-46, 176-179, 253-275, 330-426, with the files, the addresses found and the features of the stylesheet as a state | an invariant of the state: addresses in the cache are right, and the features have grown by those of one font only; induction on the files and on the fonts of a file |
| C155 | ldmlflatten 62-66 and ldml_merge.py 386-476, as for C149 | cases over the modes, from C34_flatten and C34_unflatten |
| C156 | sheet.py 65-97 and 229-281: the rows of all sheets and the loop over them | strong induction on the rows above an empty row; induction on the sheets |
| C157 | sheet.py 65-103, 105-141, 229-281 | two rows with the same texts are used alike by each action; strong induction on the rows with two runs side by side |
| C158 | `ensure_path` with text and draft at the last step of a path, with alternates (`ensureDraft`) | induction over the elements and their children; the look at the names of alternates is modelled as the error it raises |
| C159 | `ensure_path` with `matchdraft` (`ensureMatch`, `matching`, `returned`) | case analysis of `addnode` and induction over the children; each exception is proved for all inputs of its kind |
| C160 | the writer of proccldrcomments and the table of namespaces (`write`, `spaces`), the reader of `Xml/Reader` | mutual induction over the document: tokens, events and tree of what is written for each element; the declarations at the root as an invariant of `declareAll` |
| C161 | the writer without `topns` (`ser` with `declareKids`), the reader of `Xml/Reader` | mutual induction over the document with the invariant that the reader knows the prefix of every uri that the writer takes for declared; induction over the earlier saves for the shared dictionary |
| C162 | add_silidentity on top of the models of _process_path and ensure_path (Ldml/Identity.lean) | Induction over the steps: the document grows along one position; setting attributes is a change at that position; the path has no predicates, so it is found again |
| C163 | minimise_old with isInDucet, parents and resetparent | invariant over the recursion: each mark is justified, bases only move up; bases that end exclude circles; for the violations, every rule of a kind |
| C164 | getnext for the directions 1 and -1 | the search as the first that fits of a side of the list |
| C165 | process_string from the text, main after the keyboard was read | induction over the layout of a line; split by a relation of words and white space |
| C166 | the program: locales of the files, loop over them, printing | invariant of the loop over the locales in any order: what is in the table was there or is in a line |
| C167 | the comments of each element beside the merge with drafts (Merge/CopyComments) | one child by its cases, the children by induction; the violations follow for all documents of the kind |
| C168 | cldrimport:101-123 and the loop of --single; what hg says and lines 115-123 of dohg are parameters | case analysis, and the schedule theorem of C125 |

## Where the properties fail

Every item is a theorem (`..._violated`) or a fact noted in the comment of the
definition concerned. The code is transcribed as it is, faults included.

* **UnicodeSets.** A blank or a backslash in an exemplar does not survive
  writing and reading (C01). `flatten` leaves out the first combination (C04).
  `\x{41}` is not an escape, because the pattern has `ux` for `[ux]`, and
  `struni` does not know `\u{41}` (C91). `[[abc]-[b]]` keeps b, text after an
  inner set is lost, `[a|b|c]` and `[{ab}-c]` raise, `[a-c-e]` loses e,
  `us2list` ignores `^`, operators outside a set are literals (C92).
* **Collation.** `escape` and `unescape` are not inverse for text that looks
  like an escape (C06). A key equals no other of its own comparison when the
  operators are mixed (C08). The sort key of a string stops at the first unknown
  character (C09). Escaped operators are misread (C10). Code points of five
  digits are cut (C13). `keyfn` sorts backwards (C59). `&a < x = y` raises
  IndexError in minimise, a circle of bases RecursionError (C89), and minimising
  changes the order (C90). The parameter `alphabet` is unused. `asICU` writes
  `&a < x << y < z` for `&a < x << y &x < z`, and attaches a second rule for a
  string to its first (C94). `[before 1]` of a base without weight sorts after it
  (C95). `strict` does not turn off the forms of items with several letters, and
  a repeated first item makes `convertSimple` raise (C96). `z`, `b/a` makes b
  and a differ at the first level (C97). `asSimple` exchanges the first two lines
  if the first has one item, and reorders lines after `_insertBefore` (C98).
* **XML.** Newlines in attributes, unregistered namespaces, control characters,
  mixed content and `]]>` do not survive saving (C15). Earlier saves change the
  prefixes of later ones (C16). Text after a comment is lost (C63).
* **Ldml.** A draft name that is not on the scale raises (C19). A value loses
  its name in front and may be overwritten (C20, C21). A path may be ensured and
  not found (C22). `ensure_path` does not hand its argument `before` on, so that
  new elements come last. A second normalisation with drafts discards alternates, and
  serial elements are written twice (C24). Paths through names with a namespace
  lead nowhere (C64). `_find_best` rates unknown drafts 7, `get_draft` 5.
  `ensure_path` with text and draft raises AttributeError. `ReadDTD` never
  installs its comment handler, and attributes that the DTD declares cannot be
  excluded (C101). In the file an attribute with a prefix comes after all
  declared ones (C100). `Element.copy` is gone from Python 3.12.
* **Merge.** Overlay with external resources loses fonts, reorders or raises
  (C28). Difference ignores attributes outside the key and alternates (C29,
  C30). A root attribute changed on one side is reported as a clash (C31), as is
  a text (C33). Duplicates and alternates of new elements are lost (C32). With
  drafts and default arguments merge always raises AttributeError.
  The merge of alternates may replace an approved one by a generated one, asks a
  dictionary for its draft, and brings back what both sides removed (C110).
  `scripts/ldmlmerge` normalises twice.
* **Flatten.** Several explicit parents break order and uniqueness (C34).
  `fallbacks += ['root']` changes the class table (C35). Only the table entry of
  the locale itself is used, so en_AT skips en_001 (C67); a change further up is
  missed (C68); unflatten takes the difference from one document only (C69).
  `get_parent_locales` raises if root has a `fallback` element.
* **Keyboard.** No keyboard with a non-empty rule loads (C40). Negated sets
  raise KeyError (C39). `fallback=omit` with an empty set of simple transforms
  drops everything (C37). Backspaced characters come back with the next key, and
  BKSP without rules raises (C70). A run without a base raises (C71). Optional
  modifiers raise, alternatives are merged (C72). `UnicodeSetSequence.reverse`
  raises TypeError, `self.error(ctxt)` too.
* **Exemplars.** Marks after a given exemplar are skipped; a capital with a
  nukta is not folded (C42), so it is reported as a letter without case pair
  (C88). Marks may be split off several times (C44). A mark
  that is also a base may be in main and auxiliary (C45). No multigraph is
  looked for right after another (C80). A mark on an ignorable base is lost
  (C82). Ignorable bases after the first separate mark reach main (C85). A
  second analysis after a split raises (C86). The sets are written without the
  letters when no text was processed, or when blanks and punctuation outnumber
  the letters of each script (C99).
* **The list of all tags.** Reading a printed list loses hidden regions: merge_equivalent (line 190) sets hidescript where it should set hideregion, so `aa = aa-ET = aa-Latn = aa-Latn-ET` is read as a tag with the forms aa-ET and aa-Latn-ET only, and shown as aa-ET. A table without entries, or an entry without forms, is printed as an empty line, on which readAlltags raises IndexError  Of `de-1996` the variant comes back as the script, and `de-u-nu-arab` is listed as `de-u-arab-nu` (C107).
* **Language tags.** zh-yue-Hant raises; the case of an extended language is
  kept; a variant of four characters is taken for a script; a private-use subtag
  of one character is taken for a singleton; extensions are sorted (C46). `len`
  counts an extended language as nothing of its own (C47). After analysing
  region ZZ there are no forms (C50). A form may lead to another entry (C51). An
  empty line raises (C73). A refused merge changes hidescript (C75).
  Reading the registry fails when its first variant has no prefix, and when its
  last record is a variant (C102). Likely subtags are lost or wrong when the
  element for a language does not come first (C103), and readExtras does not
  register a language that is not known yet (C104). A tag of which only the
  region is hidden may be printed as what is not one of its forms (C105). A
  language of one territory gets another when the file has it with a script
  before (C106).
* **Parents of a locale.** An unknown tag with a hyphen raises TypeError, a
  missing ancestor AttributeError (C52). Without flags no parent is found (C79).
* **Registry.** Records for whole tags pollute the record before; further lines
  of repeated fields and further lines with a colon are misread (C54).
* **Sheet.** Writing into a repeated cell empties its other columns, a column
  beyond the row destroys the last cell, markup hides a write (C55). Runs of ten
  or more cells shift the columns (C76).
* **Aliases.** What an alias brings is inserted after the sibling that follows
  the alias, and the copies share their children with the originals. An alias to
  a grandparent gives a document that contains itself; an alias to its own
  element with a sibling does not come to an end; a first alias to the parent
  and a second one raise ValueError. No loop is reported: where one is found, the
  message asks for an attribute `name` that no document has, AttributeError
  (C114).
* **Font rules.** The file of font rules is sorted by the number of subtags,
  which is not the order of the tree: for a language with a font of its own a
  rule for script and region may win. The font for tags that match no question
  gets no rule, and a rule for tags without a region becomes one for all regions
  (C117). `match1` called with a text calls `langtag(str)`, with the type.
* **Adding fonts.** sldraddfonts writes the fonts of the table in alphabetical
  order, so that the default font is the first by name and not the preferred
  one. A default font that was in the file stays one, next to the new; if the
  first font is a Noto Sans it becomes the font of the user interface and there
  is no default. Fonts that are both in the table and in the stylesheet are gone
  through in the order of a set, which differs between runs. Features that are
  no longer given are not removed (C119). `URLError` is not caught (C120).
* **Functions of templates.** The text of an element without text is `None`:
  `default` takes it for a value, and `firstword`, `findsep` and `split` raise
  AttributeError. `firstword` raises IndexError on a text of blanks (C121).
* **Merging with drafts.** `merge` with drafts and without an argument `default`
  always raises AttributeError, as `base.default_draft` is asked of an element;
  only ldmlmerge passes one. With two documents whose roots have the same text it
  raises too (C122). A value that we made less certain is replaced by that of the
  base, also if nobody else touched it, and is lost unless there are alternates
  already. If theirs has a new value and new alternates, the value is lost. Of
  containers that are new on both sides, theirs is lost. `target[:] = base` takes
  all children from the base if the base of a container has a better draft and
  any text, even white space (C123).
* **Finding files.** The two functions `getldml` search in different orders, so
  that with several directories Ldml and LdmlMerge may read different files of a
  locale. That of ldml_merge.py does not turn hyphens into underscores. The list
  of all locales has also files in directories in which they are not searched
  for, and directories whose names end in .xml (C124).
* **Flattening in place.** If the output directory of ldmlflatten is one of its
  input directories, a process may read a file that another one has opened to
  write and that is empty: the locale fails, with a message only (C125). Also,
  `-s` ("Turn off multiprocessing") flattens collations, and the pool does not:
  only one of the two calls passes `flattencollation=True`.
* **cldrimport.** Nobody asks for the result of `map_async`, so that exceptions of
  the processes are lost: the locale keeps its old file, without a message. The
  attributes `references` are taken from the document read last, not from the
  combined one. Files outside the directory of their first letter are listed for
  removal and not removed (C126).
* **Expansions.** In `&ae << æ <<< Æ` the key of `Æ` begins with the weights of
  `e`: whenever the expansion sorts after the base, what follows in the chain
  differs at the first level. Its key is a plain list whose levels are shared
  with the next in the chain: in `&a < x/e << y < z` the keys of `y` and `z` are
  the same. `&ch < x` puts `x` after everything that begins with `c`, not next to
  `ch`. `&ch < c` and an expansion with a later entry in it raise AttributeError
  (C127).
* **Keyman keyboards.** `sldraddkeymans -o` raises ValueError at the first row,
  for every list that has a language: the rows have the field `id`, which is not
  a column (nor are `oskfontfamily` and `oskfontsource`). With both `-o` and `-s`
  the files are then not written (C128).
* **Keyboard tests.** kbdtest gives status zero after 256 failures, does not type
  the key of an event without an expected text, counts every event that expects an
  empty text as a failure, and asks for `ctrlR` and `altR` where the keyboard has
  `ctrlr` and `altr`, so that those key maps give nothing (C129).
* **Descendants.** `Ldml.find` and `findall` take `.//x` as the steps `.`, an empty
  tag and `x`, so they find nothing, in every document (C130). sldrautonames looks
  for `.//identity/special/sil:identity` and passes over every file (C131); in
  sldrcoverage the column `source` is always empty.
* **Coverage.** `sldrcoverage --level X` raises TypeError for every list of locales,
  for it divides by the count of English for all levels. `asregex` gives a list of
  one calendar back as a list, and `re.sub` raises. The column `source` is always
  empty. In a file without white space after `<ldml>` only the root is counted
  (C132).
* **fixsldr.** `SubElement` of CPython's accelerator raises TypeError for elements of
  the class `_Element_Py`, of which documents consist. So a missing `layout` or
  `sil:identity` is never made, and as nobody asks for the result of `map_async`
  the file is left out in silence. The table gives Guinea the code GW (C133).
* **Stylesheets.** Rules of the same full tag replace one another in part, so that
  fonts and features of different rules are joined; ignored fonts imply features;
  a rule with several selectors is read as one unknown locale (C134).
* **ldmlnormalize.** A file that is not XML in the directory ends it before anything
  is done; --validate validates the input, not what was written; missing
  subdirectories of the output are not made (C135).
* **icubreaktext.** A variable that is defined again by means of its old value (as in
  all line break rules of the CLDR) raises CycleError; names with digits or
  underscores are cut; -F does nothing; the message about a missing segmentation raises
  (C136). Characters above U+FFFF shift all later breaks of the line (C137).
* **Contexts of transforms.** `Rule.merge` tests generators for truth and runs through one
  of them twice: a transform with a context on one side, or with a plain text as
  context, is dropped (C138).
* **`fallback` elements.** `get_parent_locales` calls `split` on the element, not on its
  text: flattening a document with a `fallback` element raises (C139).
* **proccldrcomments.** A directive before the first end tag raises, `-r` is not used,
  a directive at the start of an element goes to the element before it (C140).
* **icupretty.** `--adddot` raises whenever it would add a rule (`CollElement` needs three
  arguments); the characters in `--alphabet` are not used (C141).
* **hackldmlattribs.** The output is opened before the input is read: in place, the file
  is emptied (C142).
scripts/ldmlmerge (C145): `-g` always raises an exception (`base` is not set without a revid; otherwise `StringIO` is given bytes); without `-o` the encoding writer around the text stream raises TypeError; `-v` with two files reads a member of None; the generation element is never put into the tree nor dated, so `-G` makes no difference but for a document without identity, where the command raises an exception without it; the output is opened before the last sorting, so an exception there loses the old file.
lib/sldr/hunspell.py (C146): `Hunspell` raises TypeError for all files (`list(inf.readlines)`), `Dic` raises for all files but an empty one.
* **minimise changes entries.** It calls _setSortKeys, and that splits bases and writes the expansion of an entry into those that follow it: `&ae << æ <<< Æ` is left as `&a << æ/e <<< Æ/e` (C12_changed_violated).
* **Exporting an element without text clears the template's value.** `res.text != ""` holds for None, so None is written (C147_textless_violated).
* **A row of a template that ends before its value column loses its name.** The export overwrites or empties the last cell instead (C147_short_violated).
* **sheetldml -o "" overwrites the LDML file.** An empty output name is taken for none, so the file that should be read is written (C148_empty_output_violated).
* **What follows an entry with an expansion leaves its place.** In `&ae << æ <<< Æ`, `Æ` sorts after `c` and `d`: its key begins with the weight of `e` (C61_expansion_violated, for all such tailorings).
* **--skipstubs leaves out locales that inherit a document.** The test is made on the locale's own file before it is flattened as well as after (C149_inherited_violated).
* **-s changes what ldmlflatten makes.** Imports in tailorings are expanded only with -s, and a document with an empty `<cr/>` raises an exception only with -s (C150_import_violated, C150_empty_violated).
* **Imports of the wrong tailoring.** `fname.endswith(lang + '.xml')` holds of `ten.xml` and `en`: `ten` importing from `en` gets its own. An import of `de-AT` never finds `de_AT.xml` and is dropped (C151_suffix_violated, C151_region_violated).
* **What ldmlflatten reports.** A skipped stub is reported as an error with an empty reason; with -s the first failure ends the command; with -g an untracked file, or no -o at all, ends it without any report (C152).
* **A prebase vowel leaves its base.** `_process_reorder` cuts before a base only after a mark: of `e k k` with a prebase `e` that sorts behind its base, `k e` is shown and then `k k e` (C153_bases_violated, for all such characters).
* **`sldraddfonts --stylesheet` needs `--sldr`.** Without it `os.walk(None)` raises before anything is written, even with `--ldml` (C154_stylesheet_violated, for all inputs). `font_urls.json` is read only with `--stylesheet` (C154_addresses_violated), and a file of the tree that cannot be read ends the run (C154_unreadable_violated).
* **`ldmlmerge -d` ignores explicit parents.** It hands the path of the file to flattenlocale as the name of the locale, so that `en_GB.xml` inherits from `en` and not from `en_001`, `az_Arab.xml` from `az` and not just from root; with a directory `my_files` files `my.xml` are looked for (C145_parents_violated, for all tables).
* **A table at the end of a sheet goes on in the next sheet.** `Sheet` reads the rows of all sheets in one go: if a sheet ends with a table and without an empty row, the first row of the next sheet is taken as a row of that table, so that its value gets a wrong path (C156_runs_on_violated).
* **An empty line ends a `table2dx` in a workbook but not in a TSV file.** There it has all its cells, and the table goes on: a remark further down is imported as data (C157_empty_line_violated). Runs of ten or more empty cells before a value move the value in a workbook (C157_run_violated).
* **An import by a short name is dropped.** BCP 47 names the types of collations by short names (`trad`, `dict`, `phonebk`, `gb2312`), LDML by long ones. Only `phonebk` is translated, so `[import es-u-co-trad]` finds nothing and vanishes (C151_names_violated).
* **A second text works once (C158).** `ensure_path` with a text and a draft loops over `job.alternates.keys()`, the names, and asks a name for its `text` (ldml.py:703-705): `AttributeError` for every element with an alternate. In a document with drafts the call that adds a second text therefore works once only.
* **What `matchdraft` makes it may not find (C159).** `ensure_path` with `matchdraft='draft'` returns a better alternate of the same name in place of an element with the draft asked for; a caller that sets the text of what is returned overwrites the better text. With 'alt' and 'both' an element that was put in front is not found again: a second call adds another value, or returns the value that was replaced.
* **The writer of proccldrcomments.** The uri of the prefix `xml` is misspelled in its table (line 27, `namespaces`), so an attribute `xml:lang` is written as `lang` (C160). One table maps uris to prefixes for the whole document: a prefix that is declared again with another uri moves the elements of the first uri to the second, and `xmlns=""` takes the default namespace from the root. Text beside children is dropped.
* **Declarations low.** Without `topns`, a document that has a namespace in the tag of a child of the root, saved twice by one process, has no declaration the second time and is not readable; the same goes for any document after a save with `topns` (C161). The value that `namespaces[lns] = q` stores (the line with the TODO) is never used, so the typo has no effect (the proof of C161 holds for any value).
* **ducetCompare.** Of strings that are not in the table as a whole only the first characters are compared, so that different words are equal (C59). A string with an unknown first character is not equal to itself, and the empty string raises one way round and answers `unknown` the other (C53).
* **Alternates within alternates grow.** ldml.py:884 writes an alternate within an element that has `alt` as `alt-name`, and loading does not take the prefix away again: each run of ldmlnormalize makes the name longer, `x`, `v-x`, `v-v-x` (`C24_nested_violated`, `C135_grows_violated`).
* **Drafts of parents.** ldml.py:877 does not save the draft of an element with children. If such elements are alternates of each other, the next run puts another of them first (`C24_parents_violated`).
* **Repeatable elements with `alt` multiply.** ldml.py:799-802 keeps an element that may be repeated in the tree and also makes it an alternate of the first; saving writes both. Each run of ldmlnormalize adds one more copy (`C24_repeats_violated`).
* **A comment in a DUCET file can be read as an entry.** `collation.py` reads every line with exactly one semicolon as an entry, also one that begins with `#`: an entry that was commented out is still an entry. `ducet.py` skips it (C13_comment_violated, C13_readDucet2_partial).
* **minimise_old and getnext.** `minimise_old` looks only at the strings of the collation: `&a < k` is removed
  although the DUCET has letters between a and k, which moves k behind them, and a rule with `=` raises
  IndexError (C163). `getnext` for a letter that is not in the list passes over the letter after it, and
  raises for an empty list (C164). Neither is called by the scripts.
* **Test command of the keyboard module.** It uses the name `unicode` and raises NameError at the first line
  of the test file; `[]` in a line raises IndexError (C165).
* **Printed list of all tags.** Run as a program, langtags_full.py passes over the file of a language alone
  (`aaa.xml`): it takes the part of the name before `_`, which has the `.xml` in it and is too long. A file
  like `zh_yue_Hant.xml` stops it with TypeError, and the lines depend on the order of a set: of the files
  `aa_Latn.xml` and `aa_Latn_ET.xml` the second gets the form `aa-ET` only if it is taken second (C166).
* **Comments in three way merges.** `ldmlmerge --copycomments` copies comments for the root and its children
  only: the recursive call of `merge` (ldml_merge.py:301) does not hand the option on, and elements that are
  the same are not descended into. Everything below the second level keeps the comments it had (C167).
* **Revisions from hg.** cldrimport --hg writes nothing at all: `check_output` gives bytes and
  `clog.split("\n")` raises TypeError in every process, unseen (scripts/cldrimport:113-114). With -r files are
  removed all the same. scripts/cldrupdate calls it this way, and leaves the directory cldrdata empty (C168).
* **Time zones.** zonetab gives the sign only to the degrees, so that all places
  south or west are off by up to two degrees, and within a degree their order is
  reversed (C111, C113); this is so in tzones.csv. The zones Etc/GMT±n get
  longitudes up to 540. A comment or blank line in tzones.csv counts as a zone
  without a name, and two of them before the zones put unlisted zones first
  (C112). An empty file raises ValueError.
* **Template.** `hasattr(value, 'len')` is never true, so that a dictionary of
  lists yields one dictionary (C56). An element without children keeps its template attributes, for only elements with children are looked at (C108). An XPath expression whose value is a number or a truth value raises TypeError (C108). The iteration variables of a foreach stay set after it (C109).

## Trusted base

* Lean's kernel (4.33.0). No axiom is added; the theorems depend at most on
  `propext`, `Classical.choice` and `Quot.sound`, several on none or on
  `propext` alone. `vcheck` prints the axioms of every theorem. No `sorry`, no
  `native_decide`, no `bv_decide`; concrete witnesses are evaluated by the kernel
  (`rfl`, `decide`, `decide_cbv`).
* That the definitions transcribe the cited lines. This is by reading, with the
  mutants of `seeded/LOG.jsonl` as a check that the theorems depend on what was
  transcribed.
* The specifications: the sections headed "Specification" in the property files.
  They are small and do not use the definitions of the model.

### What is modelled

| file in /repo | functions | modules |
|---|---|---|
| lib/sldr/UnicodeSets.py | all but the unused `_escape_using_backslash` | UnicodeSets |
| lib/sldr/collation.py | escape, unescape, ducetSortKey, stripzero, cmpKey, diffLevel, readDucet, SortKey, Collation.parse, __setitem__, _setSortKeys, minimise, asICU, asSimple, convertSimple, _insertBefore, itemise, CollElement | Collation |
| lib/sldr/ducet.py | readDucet, ducetCompare, _generateSortKey, keyfn | Collation/Ducet |
| lib/sldr/ldml.py | localns, reverse_localns, ETWriter, _minhash, Ldml: __init__, ReadDTD, distinguishing items, adding nodes, alternates and drafts, paths, normalise, hashes, as_xpath, serialize_xml, alt, flatten_collation, get_parent_locales | Xml, Ldml |
| lib/sldr/py3xmlparser.py | TreeBuilder | Xml/Builder |
| lib/sldr/ldml_merge.py | _arrayDict, difference, overlay, _align, merge with and without drafts, _merge_with_alts, _merge_alts, _add_alt, clash_text, flattenlocale | Merge |
| lib/sldr/ldml_keyboard.py | Keyboard, Rules, Rule matching, Context | Keyboard |
| lib/sldr/ldml_exemplars.py | UCD tests, Exemplar, Exemplars.process and analyze with all phases, ldml_read, ldml_write | Exemplars |
| lib/sldr/langtags_full.py | powerset, LangTag, LangTags.readAlltags, add | Langtags |
| lib/sldr/ldml.py resolve_aliases, _copynode | all but the hashes; findall is a parameter | Ldml/Aliases |
| scripts/fontrules, scripts/fontmatch | treerules, simplerules, the rules and their order, fontid, match1; the tree of sklearn is a parameter | Fonts |
| scripts/sldraddfonts | read_font_data, find_fonts_from_csv, find_fonts_from_css, write_font_data, features_set2str, process_font, find_url_from_fontname, build_url_from_fontname; not: reading of the stylesheet, reports | AddFonts |
| lib/sldr/ldml.py iterate_files, getldml, ldml_merge.py getldml, scripts/ldmlmerge find_ldml, scripts/ldmlflatten | the search, the list of locales, doit without options, the pool; not the loading | Files |
| scripts/cldrimport | 46-108, 125-138; not hg, lookup and the identity | Files/Import |
| scripts/sldraddkeymans | 29-97; not the download; lookup is a parameter, loading and saving a document is exact | Keymans |
| scripts/kbdtest | the messages are left out | Keyboard/Kbdtest |
| lib/sldr/ldml.py find, findall | from the root | Ldml/FindProps |
| scripts/sldrautonames | lookup, normalise and the parsing of the exemplar are parameters; an empty text stands for None | Ldml/Autonames |
| scripts/sldrcoverage | regular expressions, lookup and getldml are parameters; figures are exact; the collecting of the locales is left out; of the supplemental data the finding of the elements is, not what is made of them | Coverage/Model |
| scripts/fixsldr | reading, normalise and writing are parameters; `--debug`, which always raises, is left out | Fixsldr/Model |
| scripts/sldraddfonts read_feature_data, report_css_information | cssutils and lookup are parameters; the comparison with the files of the SLDR, which prints nothing, is left out | AddFonts/Css |
| scripts/ldmlnormalize | Ldml, save_as and lxml's validation are parameters | Files/Normal |
| scripts/icubreaktext | ICU, float and graphlib are parameters; loading the document is C34 | Break/Model |
| lib/sldr/ldml_keyboard.py Rule.merge, _coremerge | attributes named like fields of Rule are left out | Keyboard/MergeRule |
| lib/sldr/ldml.py ReadSupplementalData, get_parent_locales | parsing the file is a parameter | Merge/ParentTable |
| scripts/proccldrcomments parse, _proc_comment, serialize_xml | `topns` is true; `takesCData` and `attributeOrder` are empty; `save_as`, `addnode`, `subelement` are not called | Comments/Model, Comments/Write |
| scripts/icupretty | _setSortKeys is a parameter that keeps all but bases and expansions; `--keys` is left out | Collation/Pretty |
| scripts/hackldmlattribs | names are compared, links are not followed | Files/Hack |
| lib/sldr/collation.py 251-260, 631-632 in floating point | rounding is a parameter: monotone, and exact on 53 bits | Collation/Float |
| lib/sldr/py3xmlparser.py 79-295 XMLParser, lib/sldr/ldml.py 441-445 | expat is a parameter: the calls it makes | Xml/Parser |
| scripts/ldmlmerge | the functions on documents, git and the file system are parameters | Merge/Command |
| lib/sldr/hunspell.py | up to the exception that is always raised | Files/Hunspell |
| lib/sldr/collation.py 251-260, 607-645 in floating point, with expansions | rounding is a parameter | Collation/Mixed |
| lib/sldr/collation.py 383-384 with 251-260 | minimise from the beginning | Collation/Whole |
| lib/sldr/sheet.py 229-281 with 143-220, scripts/sheetldml | the whole export; the document is a function from what is looked for to what is found | Sheet/Export |
| lib/sldr/collation.py 619-645 | the same with rounding, for entries with an expansion and what follows them | Collation/Astray |
| lib/sldr/ldml_merge.py 386-476 | flattenlocale with reverse, copy, skipstubs, autoaliases and -s; resolving aliases and Python's recursion limit are parameters | Merge/Options |
| scripts/ldmlflatten 68-146 | the whole of the command but the parsing of its arguments; flattening is a parameter | Files/FlattenRun |
| lib/sldr/ldml_keyboard.py 193-279 | no new model; the syllables of _process_reorder | Keyboard/ReorderProps |
| scripts/sldraddfonts 23-46, 253-275, 330-426 | the whole run with its state; the report of C134 has no effect on it but the exception without --sldr | AddFonts/Run |
| scripts/ldmlflatten 62-66 | which mode is chosen | Merge/Modes |
| lib/sldr/sheet.py 43-50, 65-103 | sheets, rows in and out of groups, and the rows of a TSV file as the csv module gives them | Sheet/Book |
| (several) | not code: what the tests and tables of the code that specifications mention are, said without them | Meaning |
| lib/sldr/ldml.py (602-718, drafts) | the last step of a path; without `before`; what an error leaves half done is not modelled | Ldml.DraftPath |
| lib/sldr/ldml.py | add_silidentity, 948-952 | Ldml.Identity |
| lib/sldr/ldml.py loading and saving together (414-479, 867-893) | Verif.Ldml.SaveText, Verif.Ldml.SaveDrafts, Verif.Files.NormalAgain | from characters to characters; the default draft is a parameter |
| lib/sldr/collation.py minimise_old, getnext, lenKey | `sorted` of a set is a parameter | Collation.Old |
| lib/sldr/ldml_keyboard.py process_string, main | reading the arguments and the keyboard is left out | Keyboard.Line |
| lib/sldr/langtags_full.py program (489-531) | `os.listdir` and the tests of files are parameters | Langtags.Program |
| lib/sldr/ldml_merge.py | comments in `merge` and `_merge_with_alts`, with copycomments; the alignment is a parameter | Merge/CopyComments |
| scripts/cldrimport | dohg; lines 115-123 as a parameter | Verif/Files/Hg.lean |
| lib/sldr/ldml.py ReadTZData, scripts/zonetab | all (angles as whole seconds, without rounding) | Zones |
| lib/sldr/iana.py | Iana.parse | Iana |
| lib/sldr/utils.py | find_parents | Parents |
| lib/sldr/sheet.py | row reading and writing, process and its actions | Sheet |
| lib/sldr/xmltemplate.py | IterDict, asstr, Templater.process, processattrib, xpath (the evaluation of XPath is a parameter), fn_firstword, fn_findsep, fn_dateformat, fn_choose, fn_split, fn_default, fn_doc | Template |

### What is not modelled

* Parameters, about which nothing (or only what the theorem says) is assumed:
  ICU and `unicodedata` character properties, case mapping and normalisation;
  Python's `hash`; `difflib.SequenceMatcher`; float comparison in
  parcel_frequency; the files of a directory and the language tag database;
  expat, for which Xml/Tokens and Xml/Reader give a specification of XML as far
  as the writer uses it.
* Floats: sort keys are exact (rationals) in Tailor, and rounded in Float and Mixed.
* ldml.py ReadMetadata except the distinguishing items:
  the tables it fills are parameters. How expat reads a DTD.
* ldml_merge.py _merge_leaf (never called).
* ducet.py _ducetKey (never called).
* The fn_replace of xmltemplate.py; the shell scripts cldrupdate and sldr-flat-publish.sh.
