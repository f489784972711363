{"id": "C01", "title": "Exemplar list survives being written as a Unicode Set and read back", "statement": "For any list of non-empty strings, us2list(list2us(L, ucd)) is the set of exactly the strings in L: no string is lost, split, joined or changed by the escaping, bracing and re-parsing.", "quantifier": "every finite list of strings, every string length and content, every hex-escape policy of the ucd object", "why_tests_cant": "The escaping and the parser interact through neighbouring characters (a backslash before a bracket, a space after an escape), so the set of inputs that matter is unbounded and pairwise.", "anchors": ["lib/sldr/UnicodeSets.py:list2us", "lib/sldr/UnicodeSets.py:us2list", "lib/sldr/UnicodeSets.py:parse", "lib/sldr/UnicodeSets.py:parseitem", "lib/sldr/UnicodeSets.py:_hex_escape", "lib/sldr/UnicodeSets.py:escapechar"]}
{"id": "C02", "title": "The Unicode Set parser always makes progress", "statement": "parse(s) returns or raises for every string: every item parsed consumes at least one character, and it never hangs.", "quantifier": "every input string", "why_tests_cant": "Termination is a statement about all inputs; a test can only show that some inputs finish.", "anchors": ["lib/sldr/UnicodeSets.py:parse", "lib/sldr/UnicodeSets.py:parseitem"]}
{"id": "C03", "title": "A character range denotes exactly the characters between its ends", "statement": "Parsing [x-y] for two plain characters gives precisely the characters whose code points lie between x and y inclusive, and nothing when x is after y; a plain class of characters gives exactly these characters.", "quantifier": "every pair of characters; every list of plain characters", "why_tests_cant": "There are 10^12 pairs of end points.", "anchors": ["lib/sldr/UnicodeSets.py:parseitem"]}
{"id": "C04", "title": "flatten enumerates the combinations of a sequence of sets", "statement": "flatten(s) yields every string obtained by choosing one member from each set of the sequence, once each.", "quantifier": "every sequence of non-empty sets, any number and size of sets", "why_tests_cant": "The odometer loop must be right for every number of digits and every radix.", "anchors": ["lib/sldr/UnicodeSets.py:flatten"]}
{"id": "C05", "title": "Hex escapes decode to the character they encode", "statement": "Decoding the \\uXXXX or \\UXXXXXXXX text that the writer emits for a character gives back that character, whatever text follows it.", "quantifier": "every Unicode scalar value and every following text", "why_tests_cant": "The domain is all of Unicode times every continuation.", "anchors": ["lib/sldr/UnicodeSets.py:_escape_using_hex", "lib/sldr/UnicodeSets.py:struni"]}
{"id": "C06", "title": "Tailoring escapes round trip", "statement": "unescape(escape(s)) == s, with and without the allchars option.", "quantifier": "every string", "why_tests_cant": "The failing strings need three or more escaped marks or particular characters after a backslash; no finite set of strings covers the interplay.", "anchors": ["lib/sldr/collation.py:escape", "lib/sldr/collation.py:unescape"]}
{"id": "C07", "title": "Sorting by collation keys is well defined", "statement": "The < operator on collation sort keys is a strict weak order: irreflexive, transitive, and incomparability is transitive; so sorted() gives an order independent of the input order up to ties.", "quantifier": "every triple of three-level sort keys of any length", "why_tests_cant": "Transitivity ranges over all triples.", "anchors": ["lib/sldr/collation.py:SortKey", "lib/sldr/collation.py:diffLevel", "lib/sldr/collation.py:stripzero"]}
{"id": "C08", "title": "Sort key comparison operators agree with each other", "statement": "For two sort keys exactly one of a<b, a==b, a>b holds, and a<=b is a<b or a==b.", "quantifier": "every pair of sort keys", "why_tests_cant": "Consistency of six operators over all pairs.", "anchors": ["lib/sldr/collation.py:SortKey", "lib/sldr/collation.py:diffLevel"]}
{"id": "C09", "title": "A string's sort key is built by greedy longest match and covers the whole string", "statement": "ducetSortKey cuts the string into the longest known prefixes from the left, and the key is the level-wise concatenation of their weights without zeros; every character of the string belongs to one of the pieces.", "quantifier": "every collation element table, every string", "why_tests_cant": "The table and the string are unbounded; a character missing from the table must not affect the weights of others.", "anchors": ["lib/sldr/collation.py:ducetSortKey"]}
{"id": "C10", "title": "Tailoring rules are never lost", "statement": "Parsing a tailoring never overwrites an entry: each relation of the rules becomes its own entry, in order, even if a string occurs several times, and an explicit second assignment to a present key is refused.", "quantifier": "every sequence of relations, with arbitrary repetition", "why_tests_cant": "Needs an invariant over all histories of insertions.", "anchors": ["lib/sldr/collation.py:Collation.parse", "lib/sldr/collation.py:Collation.__setitem__"]}
{"id": "C11", "title": "Itemising a string into collation elements is lossless", "statement": "Concatenating the items that itemise yields gives back the string.", "quantifier": "every collation and every string", "why_tests_cant": "The greedy cut depends on the table contents.", "anchors": ["lib/sldr/collation.py:Collation.itemise"]}
{"id": "C12", "title": "Minimising a tailoring only removes entries", "statement": "minimise never adds or changes an entry, keeps the order of the remaining ones.", "quantifier": "every tailoring and every similarity table", "why_tests_cant": "An invariant of a loop over an arbitrary table.", "anchors": ["lib/sldr/collation.py:Collation.minimise"]}
{"id": "C13", "title": "The DUCET table is keyed by the code points of each line", "statement": "After reading an allkeys file, looking up the string made of a line's code points gives that line's weights.", "quantifier": "every allkeys file (any number of lines, any code points)", "why_tests_cant": "The failure needs a supplementary-plane line after a BMP line with the same four digit prefix; a statement about every line of every file.", "anchors": ["lib/sldr/collation.py:readDucet", "lib/sldr/ducet.py:readDucet"]}
{"id": "C14", "title": "XML text and attribute values are escaped losslessly", "statement": "The text written for an attribute value or an element text contains no raw <, > (nor \" in attributes), every & in it starts one of the entities, and decoding the entities gives back the original text.", "quantifier": "every string", "why_tests_cant": "Injection safety is a statement about all strings.", "anchors": ["lib/sldr/ldml.py:ETWriter._protect"]}
{"id": "C15", "title": "A saved document reads back as the same document", "statement": "Parsing the text serialize_xml writes gives a tree with the same tags, attributes (with values), text and child order.", "quantifier": "every document tree of any depth and width with XML names for tags", "why_tests_cant": "Well-formedness and fidelity of a recursive printer need induction over trees.", "anchors": ["lib/sldr/ldml.py:ETWriter.serialize_xml", "lib/sldr/ldml.py:ETWriter._protect", "lib/sldr/ldml.py:ETWriter._sortedattrs"]}
{"id": "C16", "title": "Saving depends on the document only", "statement": "What serialize_xml writes for a document is the same no matter which documents were saved before in the same process.", "quantifier": "every history of saves before this one", "why_tests_cant": "It is a property of histories: the namespaces argument has a mutable default that is shared by all calls.", "anchors": ["lib/sldr/ldml.py:ETWriter.serialize_xml", "lib/sldr/ldml.py:Ldml.serialize_xml"]}
{"id": "C17", "title": "Namespace prefixes translate both ways", "statement": "Turning a prefixed name such as sil:font into its {uri}font form and back gives the same name, and the reverse, for the registered prefixes.", "quantifier": "every path string", "why_tests_cant": "The translation is a substitution anywhere in arbitrary strings.", "anchors": ["lib/sldr/ldml.py:Ldml.localns", "lib/sldr/ldml.py:Ldml.reverse_localns", "lib/sldr/ldml.py:ETWriter._localisens", "lib/sldr/ldml.py:ETWriter._reverselocalns"]}
{"id": "C18", "title": "Content hashes depend on content only", "statement": "Two elements with the same tag, same text, same attributes in any order and pairwise equal children get the same content hash; the hash ignores how the attribute dictionary was filled.", "quantifier": "every pair of element trees, any hash function", "why_tests_cant": "All attribute orders and all trees.", "anchors": ["lib/sldr/ldml.py:_minhash", "lib/sldr/ldml.py:Ldml._calc_hashes"]}
{"id": "C19", "title": "The draft scale is total and consistent", "statement": "get_draft gives the rank of the draft attribute, an unknown name counts as generated, a missing one as the default; draft names and ranks are inverse; a smaller rank always means better.", "quantifier": "every element, every draft string, every default", "why_tests_cant": "The draft attribute is free text.", "anchors": ["lib/sldr/ldml.py:Ldml.get_draft", "lib/sldr/ldml.py:Ldml.draftnum"]}
{"id": "C20", "title": "Adding drafts of a leaf keeps the best value in front and loses none", "statement": "After any sequence of adding values for the same leaf with drafts and alts, the value in the main position is the best draft of those added, each alternate name keeps its best draft.", "quantifier": "every sequence of additions of values, drafts and alternate names", "why_tests_cant": "The promotion logic depends on the history of insertions.", "anchors": ["lib/sldr/ldml.py:Ldml._add_alt_leaf", "lib/sldr/ldml.py:Ldml._find_best", "lib/sldr/ldml.py:Ldml._promote"]}
{"id": "C21", "title": "change_draft and _find_best agree", "statement": "The alternate that is reported as best has a draft rank no greater than that of any other candidate at or above the threshold.", "quantifier": "every set of alternates", "why_tests_cant": "Any number of alternates.", "anchors": ["lib/sldr/ldml.py:Ldml._find_best", "lib/sldr/ldml.py:Ldml.change_draft"]}
{"id": "C22", "title": "A path that has been ensured can be found, and ensuring is idempotent", "statement": "After ensure_path(p) a find for p succeeds; calling ensure_path(p) again changes nothing and returns the same elements; elements not on the path are unchanged. A new element comes last, or before the first one with the tag given as before.", "quantifier": "every document tree and every path of child steps with attribute predicates", "why_tests_cant": "Trees and paths are unbounded.", "anchors": ["lib/sldr/ldml.py:Ldml.ensure_path", "lib/sldr/ldml.py:Ldml._unify_path", "lib/sldr/ldml.py:Ldml._process_path", "lib/sldr/ldml.py:Ldml.find"]}
{"id": "C23", "title": "Removing a path removes exactly it", "statement": "After remove_path(p), p is not found, and everything that is not under p is unchanged.", "quantifier": "every tree and path", "why_tests_cant": "Trees and paths are unbounded.", "anchors": ["lib/sldr/ldml.py:Ldml.remove_path"]}
{"id": "C24", "title": "Normalising is idempotent and loses nothing but duplicates", "statement": "normalise sorts each child list by the document order; applying it twice is the same as once; the multiset of distinct children is unchanged; the result does not depend on the order of children with different keys.", "quantifier": "every document tree", "why_tests_cant": "Induction over trees and permutations.", "anchors": ["lib/sldr/ldml.py:Ldml.normalise", "lib/sldr/ldml.py:Ldml._calc_hashes", "lib/sldr/ldml.py:Ldml.serialize_xml"]}
{"id": "C25", "title": "Text whitespace normalisation is idempotent", "statement": "Normalised text has no blanks at its ends nor around line ends, keeps all other characters, and normalising it again changes nothing.", "quantifier": "every string", "why_tests_cant": "All strings.", "anchors": ["lib/sldr/ldml.py:Ldml.normalise"]}
{"id": "C26", "title": "The XML tree builder rebuilds every tree", "statement": "Feeding the builder the start, data and end events of a document yields the same document; any well nested event sequence is accepted; text before and after children is attached to the right element.", "quantifier": "every tree; any splitting of text into data chunks", "why_tests_cant": "Induction over trees and chunkings.", "anchors": ["lib/sldr/py3xmlparser.py:TreeBuilder"]}
{"id": "C27", "title": "Collation imports are fully expanded", "statement": "flatten_collation replaces every [import x] by the imported rules, recursively; when imports are acyclic the result contains no import.", "quantifier": "every acyclic import graph of any depth", "why_tests_cant": "Depth of imports is unbounded; a cycle never ends.", "anchors": ["lib/sldr/ldml.py:flatten_collation"]}
{"id": "C28", "title": "Overlay keeps the child locale's data and fills the gaps", "statement": "Overlaying a parent locale on a child never changes or removes a value the child has; each element of the parent that the child has no counterpart of is added; overlaying the same parent twice equals overlaying once.", "quantifier": "every pair of document trees", "why_tests_cant": "Induction over trees.", "anchors": ["lib/sldr/ldml_merge.py:LdmlMerge.overlay", "lib/sldr/ldml_merge.py:LdmlMerge._overlay_child"]}
{"id": "C29", "title": "Difference removes only what the parent has", "statement": "difference(d, p) removes an element from d only if p holds an equal one; difference of a document with itself leaves no child; with an unrelated one changes nothing.", "quantifier": "every pair of document trees", "why_tests_cant": "Induction over trees.", "anchors": ["lib/sldr/ldml_merge.py:LdmlMerge.difference"]}
{"id": "C30", "title": "Unflattening then flattening gives the flat document back", "statement": "Overlaying a parent on the difference from this parent restores all the elements of the original document.", "quantifier": "every pair of documents", "why_tests_cant": "Composition of two recursive tree programs.", "anchors": ["lib/sldr/ldml_merge.py:LdmlMerge.difference", "lib/sldr/ldml_merge.py:LdmlMerge.overlay"]}
{"id": "C31", "title": "Three way merge: an unchanged side has no effect", "statement": "If theirs equals the base, merging leaves ours as it is.", "quantifier": "every pair of documents (ours, base)", "why_tests_cant": "Induction over trees and any alignment of children.", "anchors": ["lib/sldr/ldml_merge.py:LdmlMerge.merge", "lib/sldr/ldml_merge.py:LdmlMerge._align"]}
{"id": "C32", "title": "Three way merge: the changed side wins when we made no change", "statement": "If ours equals the base, merging yields theirs: same elements with the same content.", "quantifier": "every pair of documents (theirs, base)", "why_tests_cant": "Induction over trees and any alignment of children.", "anchors": ["lib/sldr/ldml_merge.py:LdmlMerge.merge", "lib/sldr/ldml_merge.py:LdmlMerge._align"]}
{"id": "C33", "title": "Three way merge: agreeing sides do not conflict", "statement": "If ours equals theirs, merging leaves ours as it is and reports no clash, whatever the base.", "quantifier": "every pair of documents", "why_tests_cant": "Induction over trees.", "anchors": ["lib/sldr/ldml_merge.py:LdmlMerge.merge", "lib/sldr/ldml_merge.py:LdmlMerge.clash_text"]}
{"id": "C34", "title": "The inheritance chain ends in root and visits specific before general", "statement": "The locales overlaid when flattening are the explicit parents or the truncations of the tag from long to short, ending with root, each at most once per chain, and the process ends.", "quantifier": "every locale name, every parent-locale table, every set of files present", "why_tests_cant": "Locale names are unbounded and the table is data.", "anchors": ["lib/sldr/ldml_merge.py:flattenlocale", "lib/sldr/ldml.py:Ldml.get_parent_locales"]}
{"id": "C35", "title": "Flattening a locale does not change the result of later flattenings", "statement": "The fallback list used for a locale is the same whatever locales were flattened before in the process.", "quantifier": "every history of flattenings", "why_tests_cant": "The class level table is mutated in place; histories are unbounded.", "anchors": ["lib/sldr/ldml_merge.py:flattenlocale", "lib/sldr/ldml.py:Ldml.ReadSupplementalData", "lib/sldr/ldml.py:Ldml.get_parent_locales"]}
{"id": "C36", "title": "The multi-valued dictionary used by merge behaves like a multimap", "statement": "After any sequence of set, pop and remove, the stored values of a key are those added and not yet taken out, last in first out for pop.", "quantifier": "every sequence of operations", "why_tests_cant": "An invariant over operation histories.", "anchors": ["lib/sldr/ldml_merge.py:_arrayDict"]}
{"id": "C37", "title": "Typing on a keyboard without transforms outputs the keys typed", "statement": "For a keyboard with no transforms, the output after any sequence of keys is the concatenation of what the map assigns to each key.", "quantifier": "every key map and every sequence of key strokes", "why_tests_cant": "Histories of key strokes are unbounded.", "anchors": ["lib/sldr/ldml_keyboard.py:Keyboard.process", "lib/sldr/ldml_keyboard.py:Keyboard._process_empty", "lib/sldr/ldml_keyboard.py:Context"]}
{"id": "C38", "title": "Modifier strings are normalised", "statement": "The order in which modifiers are written does not matter: a keyMap declared for ctrl+shift is used for shift+ctrl.", "quantifier": "every permutation of every modifier list", "why_tests_cant": "All permutations of all lists.", "anchors": ["lib/sldr/ldml_keyboard.py:Keyboard.parse_modifiers", "lib/sldr/ldml_keyboard.py:Keyboard.map_key"]}
{"id": "C39", "title": "Transform matching picks the longest rule", "statement": "Matching a transform rule set against a text returns the longest rule that is a prefix of the text and whose contexts match, and nothing else when none does.", "quantifier": "every rule set and every input", "why_tests_cant": "The trie and the text are unbounded.", "anchors": ["lib/sldr/ldml_keyboard.py:Rules.match", "lib/sldr/ldml_keyboard.py:Rules.append"]}
{"id": "C40", "title": "Every keyboard with well formed transforms loads", "statement": "A keyboard whose transform rules have a non-empty from pattern can be loaded.", "quantifier": "every rule", "why_tests_cant": "A statement about every rule.", "anchors": ["lib/sldr/ldml_keyboard.py:Rules.append"]}
{"id": "C41", "title": "Trying a key leaves the context it started from unchanged", "statement": "Cloning a typing context and processing keys on the clone leaves the original as it was.", "quantifier": "every context and every sequence of operations on the clone", "why_tests_cant": "Aliasing over histories.", "anchors": ["lib/sldr/ldml_keyboard.py:Context.clone"]}
{"id": "C42", "title": "Text is cut into clusters without loss", "statement": "Processing a text ends, and the clusters and graphemes collected cover each character of the text once, in order, apart from the case folding and repetition of a nukta base.", "quantifier": "every text, every set of character property functions, every multigraph set", "why_tests_cant": "All texts and all Unicode versions.", "anchors": ["lib/sldr/ldml_exemplars.py:Exemplars.process"]}
{"id": "C43", "title": "Exemplar analysis terminates", "statement": "The loop which splits marks from bases until no change is needed ends for any collection of clusters.", "quantifier": "every finite collection of clusters and every character property functions", "why_tests_cant": "Termination over all inputs and all iteration orders.", "anchors": ["lib/sldr/ldml_exemplars.py:Exemplars.analyze", "lib/sldr/ldml_exemplars.py:Exemplars.split_exemplar"]}
{"id": "C44", "title": "Splitting keeps the counts", "statement": "Splitting a mark off an exemplar credits the mark and the remaining exemplar with exactly the count of the split exemplar.", "quantifier": "every cluster collection", "why_tests_cant": "Histories of splits on a shared counter.", "anchors": ["lib/sldr/ldml_exemplars.py:Exemplars.split_exemplar"]}
{"id": "C45", "title": "Frequency parcelling puts each exemplar in exactly one of main and auxiliary", "statement": "After parcelling, each counted exemplar is either in main or in auxiliary and not both, a frequent exemplar is never in auxiliary while a rarer one is in main.", "quantifier": "every table of counts", "why_tests_cant": "All tables.", "anchors": ["lib/sldr/ldml_exemplars.py:Exemplars.parcel_frequency"]}
{"id": "C46", "title": "A language tag prints back as its subtags", "statement": "Printing a well formed tag after parsing gives the tag in canonical case; parsing the printed form gives an equal tag.", "quantifier": "every language tag", "why_tests_cant": "All subtag combinations, including private use and extensions.", "anchors": ["lib/sldr/langtags_full.py:LangTag.parse", "lib/sldr/langtags_full.py:LangTag.__str__", "lib/sldr/langtags_full.py:LangTag.__repr__"]}
{"id": "C47", "title": "len of a language tag is its number of subtags", "statement": "len(tag) equals the number of - separated components of the printed tag.", "quantifier": "every tag", "why_tests_cant": "All subtag combinations.", "anchors": ["lib/sldr/langtags_full.py:LangTag.__len__"]}
{"id": "C48", "title": "Tag matching is component-wise", "statement": "Two tags match exactly if their languages, scripts, regions and other components are equal where required; matching a tag with itself is true.", "quantifier": "every pair of tags", "why_tests_cant": "All pairs.", "anchors": ["lib/sldr/langtags_full.py:LangTag.matches"]}
{"id": "C49", "title": "powerset yields each subset once", "statement": "powerset(xs) yields each sub-collection of xs exactly once, smaller ones first.", "quantifier": "every list", "why_tests_cant": "All lengths.", "anchors": ["lib/sldr/langtags_full.py:powerset"]}
{"id": "C50", "title": "Equivalent forms of a tag include the tag and never invent subtags", "statement": "allforms(tag) contains the full tag, and each form it contains uses only subtags of the tag (with hidden script or default region left out).", "quantifier": "every tag", "why_tests_cant": "All subtag combinations.", "anchors": ["lib/sldr/langtags_full.py:LangTag.allforms"]}
{"id": "C51", "title": "Tag tables map every alternative to its tag", "statement": "After adding tags to the tag table, every form that was registered finds the entry.", "quantifier": "every sequence of additions", "why_tests_cant": "Histories of additions.", "anchors": ["lib/sldr/langtags_full.py:LangTags.add"]}
{"id": "C52", "title": "Finding the parents of a locale ends and shortens", "statement": "The search for the parents of a locale ends for every tag and tag set; every step it takes shortens the tag or removes private use, and the list ends with root.", "quantifier": "every tag and every tag database", "why_tests_cant": "Arbitrary database.", "anchors": ["lib/sldr/utils.py:find_parents"]}
{"id": "C53", "title": "DUCET comparison is antisymmetric", "statement": "Comparing two strings in one order gives the negative of comparing them in the other, and a string compares equal to itself.", "quantifier": "every table and every pair of strings", "why_tests_cant": "All tables and pairs.", "anchors": ["lib/sldr/ducet.py:ducetCompare"]}
{"id": "C54", "title": "The subtag registry is read record by record", "statement": "Each subtag record of the registry is found under its type and subtag with the field values given, repeated fields as lists, continuation lines joined with a blank.", "quantifier": "every registry file", "why_tests_cant": "All files.", "anchors": ["lib/sldr/iana.py:Iana.parse"]}
{"id": "C55", "title": "Writing a spreadsheet cell changes that cell only", "statement": "Writing a value in a column of a row with repeated cells sets that column and leaves every other column's value and the row's width as they were.", "quantifier": "every row of run-length encoded cells and every column", "why_tests_cant": "All encodings of a row.", "anchors": ["lib/sldr/sheet.py:_writeodsitem"]}
{"id": "C56", "title": "A dictionary of lists iterates over all combinations", "statement": "Iterating the template engine's multi-valued dictionary yields one dictionary per combination of the values.", "quantifier": "every dictionary of lists", "why_tests_cant": "All sizes.", "anchors": ["lib/sldr/xmltemplate.py:IterDict"]}
{"id": "C57", "title": "The parent tag of a locale is the tag without its last subtag", "statement": "Trimming a locale name removes exactly the last component, and repeated trimming ends.", "quantifier": "every locale name", "why_tests_cant": "All strings.", "anchors": ["lib/sldr/ldml_merge.py:flattenlocale"]}
{"id": "C58", "title": "Splitting the base of a tailored entry loses nothing", "statement": "When the base of a tailored entry is not itself known, it is split into a prefix and an expansion. The prefix is the longest known one, prefix followed by expansion is the original base, and an entry that already has an expansion, or for which no prefix is known, is left as it is.", "quantifier": "every entry and every set of known strings", "why_tests_cant": "There are unboundedly many base strings and every subset of their prefixes can be known.", "anchors": ["lib/sldr/collation.py: CollElement.expand"]}
{"id": "C59", "title": "The DUCET sorting helper sorts in DUCET order", "statement": "Sorting a list of strings with the key class made by keyfn puts them in the order in which ducetCompare puts them.", "quantifier": "every table and every pair of strings", "why_tests_cant": "The claim is about the sign convention of a comparison for all pairs of strings.", "anchors": ["lib/sldr/ducet.py: keyfn", "lib/sldr/ducet.py: ducetCompare"]}
{"id": "C60", "title": "A tailored entry sorts after its base, at the level of its relation", "statement": "After a tailoring is read, the sort key of each entry differs from that of its base at exactly the level of the relation (<, <<, <<<), with the entry after the base, and not at all for =.", "quantifier": "every tailoring and every DUCET table", "why_tests_cant": "The key of an entry depends on the whole chain of entries before it, which has any length.", "anchors": ["lib/sldr/collation.py: Collation._setSortKeys", "lib/sldr/collation.py: CollElement.sortkey"]}
{"id": "C61", "title": "A tailoring stays between its reset point and what follows", "statement": "However many entries a tailoring has, each of them sorts before every string of the DUCET that is after the string its chain of bases goes back to at the primary level.", "quantifier": "every tailoring, of any length, and every DUCET table", "why_tests_cant": "The step between entries must be small enough for a tailoring of any size.", "anchors": ["lib/sldr/collation.py: Collation._setSortKeys", "lib/sldr/collation.py: CollElement.sortkey"]}
{"id": "C62", "title": "Saving does not destroy the document in memory", "statement": "A save changes no text, draft or alternate of the document in memory; saving again writes the same; no element is lost by a save.", "quantifier": "every document with alternates, and every session of additions, draft changes and saves", "why_tests_cant": "A save attaches the alternates to the tree and takes them off again; whether that restores the tree depends on the whole history of the session.", "anchors": ["lib/sldr/ldml.py:Ldml.save_as", "lib/sldr/ldml.py:Ldml.serialize_xml", "lib/sldr/ldml.py:Ldml.clean_draft"]}
{"id": "C63", "title": "Comments in a file change nothing but the comments", "statement": "Reading a file gives the same elements, attributes and texts as reading the same file with its comments taken out.", "quantifier": "every document with comments in any places", "why_tests_cant": "Comments can stand at any place of a document of any size.", "anchors": ["lib/sldr/ldml.py:Ldml.__init__"]}
{"id": "C64", "title": "The path of an element leads to it", "statement": "The path that as_xpath gives for an element can be read by find, and find gives that element.", "quantifier": "every document, every element, every set of distinguishing attributes", "why_tests_cant": "Paths are built from arbitrary tags and values and read by a regular expression.", "anchors": ["lib/sldr/ldml.py:_Element.as_xpath", "lib/sldr/ldml.py:Ldml._process_path", "lib/sldr/ldml.py:Ldml.find"]}
{"id": "C65", "title": "A merge that reports no change has changed nothing", "statement": "If merge returns False, the document is as it was; if it returns True, something changed.", "quantifier": "every three documents", "why_tests_cant": "Any tree of changes and any alignment of children.", "anchors": ["lib/sldr/ldml_merge.py:LdmlMerge.merge"]}
{"id": "C66", "title": "A three way merge decides element by element", "statement": "Where key attributes tell siblings apart, the merged document has under each key what ours, theirs and the base have under that key decide: unchanged on one side means the other side's version (or its removal), changed on both sides means a merge of the two, and nothing else.", "quantifier": "every three documents whose sibling keys differ, both values of the winner option, merged without drafts (C123 is the same question for merges with drafts)", "why_tests_cant": "Alignment runs in three passes over shared dictionaries; any mixture of additions, removals and changes must come out right.", "anchors": ["lib/sldr/ldml_merge.py:LdmlMerge.merge", "lib/sldr/ldml_merge.py:LdmlMerge._align"]}
{"id": "C67", "title": "Explicit parents hold along the whole chain", "statement": "A locale inherits from what its parent inherits from: an explicit parent of a locale in the chain is followed too.", "quantifier": "every locale name and parent-locale table", "why_tests_cant": "The table is data and chains have any length.", "anchors": ["lib/sldr/ldml_merge.py:flattenlocale", "lib/sldr/ldml.py:Ldml.get_parent_locales"]}
{"id": "C68", "title": "A set of changed locales selects all locales that inherit from one of them", "statement": "With a set of changed locales, a locale is processed if and only if one of the locales it inherits from is in the set.", "quantifier": "every set of changed locales, locale name and parent-locale table", "why_tests_cant": "Sets and chains are unbounded.", "anchors": ["lib/sldr/ldml_merge.py:flattenlocale"]}
{"id": "C69", "title": "Unflattening undoes flattening", "statement": "Unflattening a flattened locale leaves nothing that the locale inherits.", "quantifier": "every locale, every set of files, every parent-locale table", "why_tests_cant": "Any number of levels of inheritance.", "anchors": ["lib/sldr/ldml_merge.py:flattenlocale"]}
{"id": "C70", "title": "Backspace removes the last character", "statement": "On every keyboard the backspace key removes the last character of the text for good: what is typed afterwards follows the shortened text.", "quantifier": "every keyboard and every sequence of key strokes with backspaces in it", "why_tests_cant": "Histories of key strokes are unbounded.", "anchors": ["lib/sldr/ldml_keyboard.py:Keyboard._process_backspace", "lib/sldr/ldml_keyboard.py:Keyboard.process"]}
{"id": "C71", "title": "Reordering keeps the characters", "statement": "The reorder layer outputs a permutation of its input: no character is lost, added or doubled, except for the dotted circle that is inserted where a run has no base.", "quantifier": "every rule set, every input, every state of the layers", "why_tests_cant": "Rule sets and texts are unbounded.", "anchors": ["lib/sldr/ldml_keyboard.py:Keyboard._process_reorder", "lib/sldr/ldml_keyboard.py:Keyboard._sort"]}
{"id": "C72", "title": "A keyMap can be declared for several combinations of modifiers", "statement": "A keyMap whose modifiers attribute lists several combinations separated by blanks, or contains optional modifiers marked with a question mark, is used for each of the combinations.", "quantifier": "every modifiers attribute", "why_tests_cant": "Every list of combinations.", "anchors": ["lib/sldr/ldml_keyboard.py:Keyboard.parse_modifiers"]}
{"id": "C73", "title": "Every tag of the list of tags finds its entry", "statement": "After a list of tags is read, with lines of equivalent tags, each tag finds the entry of the last line that has it; tags of the same line find the same entry, which has the language, script, region, variants and extensions of the last (fullest) tag of the line.", "quantifier": "every list of tags", "why_tests_cant": "All lists, with tags on several lines.", "anchors": ["lib/sldr/langtags_full.py:LangTags.readAlltags"]}
{"id": "C74", "title": "Analysing a tag keeps what it says", "statement": "Analysing a tag against the table gives the entry for it if there is one, and otherwise only adds components: language, script, region (unless ZZ, unknown), variants and extensions of the tag are kept. The analysis always ends.", "quantifier": "every tag and table", "why_tests_cant": "All tags and tables; the function calls itself.", "anchors": ["lib/sldr/langtags_full.py:LangTag.analyse"]}
{"id": "C75", "title": "Merging equivalent tags loses nothing", "statement": "Merging a tag into an entry keeps what both say; a merge that is refused leaves the entry as it was.", "quantifier": "every pair of tags", "why_tests_cant": "All pairs of tags.", "anchors": ["lib/sldr/langtags_full.py:LangTag.merge_equivalent"]}
{"id": "C76", "title": "A spreadsheet row is read column by column", "statement": "A row is read with the text of each column, so that a value written in a column is read from that column again.", "quantifier": "every row of run-length encoded cells and every column", "why_tests_cant": "All encodings of a row.", "anchors": ["lib/sldr/sheet.py:Sheet._odssetup", "lib/sldr/sheet.py:Sheet._writeodsitem"]}
{"id": "C77", "title": "Import and export of a spreadsheet agree", "statement": "For every row, import puts the text of a cell at exactly that path of the LDML document from which export fills the cell.", "quantifier": "every kind of row and table, every number of columns", "why_tests_cant": "All tables.", "anchors": ["lib/sldr/sheet.py:Sheet._action_ldml", "lib/sldr/sheet.py:Sheet._action_ods", "lib/sldr/sheet.py:Sheet._action2dx_ldml", "lib/sldr/sheet.py:Sheet._action2dx_ods"]}
{"id": "C78", "title": "Each row of a spreadsheet is used once", "statement": "Processing a sheet ends and uses each row at most once and in order: rows below the header of a table belong to the table until its end, rows outside tables give one value, rows with an empty first cell outside tables are skipped.", "quantifier": "every sequence of rows", "why_tests_cant": "All sequences of rows.", "anchors": ["lib/sldr/sheet.py:Sheet.process"]}
{"id": "C79", "title": "Parents without a condition", "statement": "If neither the script nor the region has to match, every ancestor in the database is a parent.", "quantifier": "every tag and every tag database", "why_tests_cant": "Arbitrary database.", "anchors": ["lib/sldr/utils.py:find_parents"]}
{"id": "C80", "title": "Given multigraphs are recognised everywhere", "statement": "At each place of a text where no earlier cluster is going on, the longest of the given exemplars that starts there is taken as one cluster.", "quantifier": "every text and every set of given exemplars", "why_tests_cant": "All texts.", "anchors": ["lib/sldr/ldml_exemplars.py:Exemplars.process"]}
{"id": "C81", "title": "Separable marks are separated", "statement": "When the analysis is done, no exemplar with a base keeps a mark that never combines, is ignorable, occurs on many bases, occurs on the same bases as another mark, or follows a mark of the same combining class.", "quantifier": "every collection of clusters, every table of character properties", "why_tests_cant": "A fixed point over all collections.", "anchors": ["lib/sldr/ldml_exemplars.py:Exemplars.analyze", "lib/sldr/ldml_exemplars.py:Exemplars.find_second_marks"]}
{"id": "C82", "title": "Analysis loses and adds no character", "statement": "The characters of the punctuation, digits, main and auxiliary sets after the analysis are exactly those of the clusters found in the text.", "quantifier": "every text, every table of character properties", "why_tests_cant": "All texts and Unicode versions.", "anchors": ["lib/sldr/ldml_exemplars.py:Exemplars.analyze", "lib/sldr/ldml_exemplars.py:Exemplars.parcel_marks", "lib/sldr/ldml_exemplars.py:Exemplars.parcel_ignorable", "lib/sldr/ldml_exemplars.py:Exemplars.parcel_frequency"]}
{"id": "C83", "title": "Graphemes are listed by frequency", "statement": "The list of graphemes has each cluster that is not punctuation once, the most frequent first, and the list with counts has the same order and the right counts.", "quantifier": "every collection of clusters", "why_tests_cant": "All collections.", "anchors": ["lib/sldr/ldml_exemplars.py:Exemplars.save_graphemes"]}
{"id": "C84", "title": "The index is made of capitals of the main set", "statement": "After the analysis the index has exactly the capitals of those exemplars of the main set which do not start with a mark.", "quantifier": "every collection of clusters", "why_tests_cant": "All collections.", "anchors": ["lib/sldr/ldml_exemplars.py:Exemplars.make_index"]}
{"id": "C85", "title": "Ignorable characters are auxiliary", "statement": "A default ignorable character that is the base of a cluster is put in the auxiliary set, never in the main set.", "quantifier": "every collection of clusters", "why_tests_cant": "All collections and orders.", "anchors": ["lib/sldr/ldml_exemplars.py:Exemplars.parcel_ignorable"]}
{"id": "C86", "title": "Analysis can be repeated", "statement": "After an analysis, further text can be processed and analysed again.", "quantifier": "every history of processing and analysis", "why_tests_cant": "Histories.", "anchors": ["lib/sldr/ldml_exemplars.py:Exemplars.analyze", "lib/sldr/ldml_exemplars.py:Exemplars.find_punctuation"]}
{"id": "C87", "title": "The script is that of most characters", "statement": "The script that is reported is one that at least as many characters of the text have as any other script.", "quantifier": "every text", "why_tests_cant": "All texts.", "anchors": ["lib/sldr/ldml_exemplars.py:Exemplars.process", "lib/sldr/ldml_exemplars.py:Exemplars._get_script"]}
{"id": "C88", "title": "Characters without case pair", "statement": "A cluster is reported as occurring in upper case only or lower case only exactly if this is so in the text.", "quantifier": "every text", "why_tests_cant": "All texts.", "anchors": ["lib/sldr/ldml_exemplars.py:Exemplars.find_non_casing_characters"]}
{"id": "C89", "title": "Minimising a tailoring finishes", "statement": "minimise returns for every tailoring that was parsed and has sort keys.", "quantifier": "every tailoring", "why_tests_cant": "All tailorings; the recursion depends on the chains of bases.", "anchors": ["lib/sldr/collation.py:Collation.minimise", "lib/sldr/collation.py:CollElement.head", "lib/sldr/collation.py:CollElement.all_children"]}
{"id": "C90", "title": "Minimising a tailoring does not change the order", "statement": "Any two strings are in the same order before and after minimise.", "quantifier": "every tailoring, every pair of strings", "why_tests_cant": "All tailorings and strings.", "anchors": ["lib/sldr/collation.py:Collation.minimise"]}
{"id": "C91", "title": "Hex escapes are read in every documented form", "statement": "An escape \\uXXXX, \\UXXXXXXXX, \\xXX, \\u{X...} or \\x{X...}, with digits of either case, is read as the character with that code.", "quantifier": "every character, every form, every number of digits in braces, every text after it", "why_tests_cant": "All code points, all spellings of them and all texts that may follow.", "anchors": ["lib/sldr/UnicodeSets.py:hexescre", "lib/sldr/UnicodeSets.py:hexgre", "lib/sldr/UnicodeSets.py:struni", "lib/sldr/UnicodeSets.py:parse"]}
{"id": "C92", "title": "Set operators compute union, intersection and difference", "statement": "In a set, [A|B], [A&B] and [A-B] of sets are their union, intersection and difference, nested to any depth, and [^A] excludes A.", "quantifier": "every set expression", "why_tests_cant": "All expressions of any depth.", "anchors": ["lib/sldr/UnicodeSets.py:parseitem", "lib/sldr/UnicodeSets.py:us2list"]}
{"id": "C93", "title": "A sequence of sets is read in order", "statement": "Reading a sequence of characters, braced strings and (possibly negated) sets gives one set for each, in order, with its members and negation.", "quantifier": "every sequence of pieces of any length, whose strings are not empty and have no blank and no backslash (C01 is about those)", "why_tests_cant": "All sequences and strings, including the escaping of all syntax characters.", "anchors": ["lib/sldr/UnicodeSets.py:parse", "lib/sldr/UnicodeSets.py:parseitem"]}
{"id": "C94", "title": "A tailoring written in ICU syntax reads back as the same rules", "statement": "Writing a collation in ICU syntax, in any order of its entries and with any width of lines, and reading the text gives the same rules in the same order: string, relation, base, before and expansion.", "quantifier": "every collation, every order of its entries, every set of sort keys, every line width", "why_tests_cant": "All tailorings of any length, and all ways in which chains, resets and line breaks can follow each other.", "anchors": ["lib/sldr/collation.py:Collation.asICU", "lib/sldr/collation.py:Collation.cmpKeys", "lib/sldr/collation.py:Collation.parse"]}
{"id": "C95", "title": "An entry after [before n] sorts before its base", "statement": "In a collation with and without before, each entry sorts next to its base on the side that its rule says, and differs from it at the level of the rule and not at an earlier one.", "quantifier": "every tailoring, every table of weights, every entry", "why_tests_cant": "All tailorings, with any number of entries before each other, and all weights.", "anchors": ["lib/sldr/collation.py:Collation._setSortKeys", "lib/sldr/collation.py:CollElement.sortkey"]}
{"id": "C96", "title": "A simple collation is read as the rules it stands for", "statement": "Reading the lines of a simple collation relates every item to the one before it: at the first level at the start of a line, at the second after a blank, at the third after a slash; a single letter or a single item of several letters stands for its forms in the other cases too, unless strict is set.", "quantifier": "every list of lines, every number of groups and items, every case mapping, every table of weights, strict or not", "why_tests_cant": "All lists of lines, items and case mappings; the order and levels depend on everything read before.", "anchors": ["lib/sldr/collation.py:Collation.convertSimple"]}
{"id": "C97", "title": "A simple collation sorts its items as listed", "statement": "After converting a simple collation, of two listed items the earlier sorts before the later: at the first level if a line starts between them, else at the second if a group does, else at the third.", "quantifier": "every list of lines, every pair of items, every table of weights, every outcome of the comparison with the table's order", "why_tests_cant": "The keys of an item depend on all items before it and on the number of all items; the bound on the increments must hold for every number of items.", "anchors": ["lib/sldr/collation.py:Collation.convertSimple", "lib/sldr/collation.py:Collation._insertBefore", "lib/sldr/collation.py:Collation._setSortKeys", "lib/sldr/collation.py:CollElement.sortkey"]}
{"id": "C98", "title": "A simple collation that is read and written has the same lines", "statement": "Converting the lines of a simple collation and writing it as a simple collation gives the same lines, groups and items in the same order, with forms in other cases written out.", "quantifier": "every list of lines with any number of groups and items, every case mapping, every table of weights", "why_tests_cant": "All lists of lines; the order of the output depends on the order in which a tree is filled from sorted entries.", "anchors": ["lib/sldr/collation.py:Collation.asSimple", "lib/sldr/collation.py:Collation.convertSimple"]}
{"id": "C99", "title": "Exemplar sets survive being written and read", "statement": "A set of exemplars, set from LDML or found in texts, is written in the order of the collator to a text which, when read, gives the same exemplars; and none of the given exemplars is too long to be looked for in texts.", "quantifier": "every set of exemplars, every text processed before", "why_tests_cant": "All sets, all strings.", "anchors": ["lib/sldr/ldml_exemplars.py:Exemplars.ldml_read", "lib/sldr/ldml_exemplars.py:Exemplars.ldml_write"]}
{"id": "C100", "title": "Documents are in the order of the DTD", "statement": "In a normalised document children come in the order in which the content model of their parent lists them, with unlisted ones last; children that differ in an attribute with listed values come in the order of these values, with other values last; attributes are written in the order of their declarations, with undeclared ones last.", "quantifier": "every DTD in which an element is declared once and before its attributes, every document", "why_tests_cant": "All DTDs and all documents.", "anchors": ["lib/sldr/ldml.py:Ldml.ReadDTD", "lib/sldr/ldml.py:Ldml.normalise", "lib/sldr/ldml.py:Ldml._sortedattrs"]}
{"id": "C101", "title": "The DTD and the metadata say which attributes tell elements apart", "statement": "An attribute distinguishes elements of a tag if and only if the DTD declares it for the tag without marking it @METADATA or @VALUE, or the metadata names it for the tag, or names it for all tags and does not exclude it for this one.", "quantifier": "every DTD, every list of distinguishing items, every tag and attribute", "why_tests_cant": "All DTDs, all metadata.", "anchors": ["lib/sldr/ldml.py:Ldml.ReadDTD", "lib/sldr/ldml.py:Ldml.ReadMetadata", "lib/sldr/ldml.py:Ldml._distattributes"]}
{"id": "C102", "title": "The registry is read in full", "statement": "Reading the registry of language subtags gives one tag for each language and extended language, with the descriptions, the preferred value, the deprecation and the hidden script of its record, found under the language with and without this script and under no other text; after a prefix the variants with this prefix are allowed, and after every language those without a prefix.", "quantifier": "every registry, any number and order of records and fields", "why_tests_cant": "The state carried from one record to the next depends on all records before.", "anchors": ["lib/sldr/langtags_full.py:LangTags.readIana", "lib/sldr/langtags_full.py:LangTags.add"]}
{"id": "C103", "title": "Likely subtags are found", "statement": "After the likely subtags are read, every `from` is found and leads to the tag with the script and the region of its `to`; no text of the table ever finds a tag of another language, or with another script or region than the text names; each text by which a tag is found is among its forms.", "quantifier": "every table of tags without variants, every file of likely subtags, every order of sets", "why_tests_cant": "Each element changes shared tag objects that earlier ones left; all sequences of elements.", "anchors": ["lib/sldr/langtags_full.py:LangTags.readLikelySubtags", "lib/sldr/langtags_full.py:LangTag.analyse", "lib/sldr/langtags_full.py:LangTags.add"]}
{"id": "C104", "title": "Extra tags are found", "statement": "After a row of the extra tags is read, its tag is found, what was found before is still found, and no text finds a tag that says something else.", "quantifier": "every table, every row", "why_tests_cant": "All tables and rows.", "anchors": ["lib/sldr/langtags_full.py:LangTags.readExtras"]}
{"id": "C105", "title": "The printed tag is one of its own forms", "statement": "The text that a language tag object is printed as (its short form, with script and region left out when they are hidden) is always one of the equivalent forms that the object lists for itself.", "quantifier": "every language tag object: any language, script, region, variants, extensions and any setting of what is hidden", "why_tests_cant": "The printed form and the list of forms are computed by different code from five independent hiding settings and lists of any length; a test sees a few combinations.", "anchors": ["lib/sldr/langtags_full.py:LangTag.__str__", "lib/sldr/langtags_full.py:LangTag.allforms"]}
{"id": "C106", "title": "A language of one territory gets that territory", "statement": "After the supplemental data is read, a language that the file places in exactly one territory is found as the language with that territory, and the language alone leads to a tag with that territory (and with its script, if the file gives exactly one), unless the table already had another region for it. Nothing is changed for any other language, everything that was found before is still found, and no text finds a tag that contradicts it.", "quantifier": "every supplemental data file with well-formed codes, every table of tags and every order of iterating over sets of forms", "why_tests_cant": "The result depends on the order of territories in the file and on all tags read before; a test covers one file.", "anchors": ["lib/sldr/langtags_full.py:LangTags.readSupplementalData"]}
{"id": "C107", "title": "The written list of all tags can be read back", "statement": "The list of all tags that the program prints for a table of tags is read back without an error. Afterwards a text finds an entry exactly if it is a form of an entry of the table, and what it finds has the language, script, region, variants and extensions of such an entry. The printed list does not depend on the order in which the entries are gone through, and its lines are in order. The entry read back has the same forms as the one written.", "quantifier": "every table of tags, every order of iterating over the set of its entries and every choice of tags that are marked as having a file", "why_tests_cant": "The forms of all entries and their marks share one text syntax, and later lines replace earlier ones; a test covers one table.", "anchors": ["lib/sldr/langtags_full.py:LangTags.generate_alltags", "lib/sldr/langtags_full.py:__main__", "lib/sldr/langtags_full.py:LangTags.readAlltags"]}
{"id": "C108", "title": "A processed template has no template markup left", "statement": "After a template is processed no instruction element is left in it, at any depth, and no template attribute. A template that has neither is left as it is.", "quantifier": "every template, every data document, every set of variables and every XPath evaluator", "why_tests_cant": "Templates nest instructions, literal elements, contexts and loops to any depth.", "anchors": ["lib/sldr/xmltemplate.py:Templater.process", "lib/sldr/xmltemplate.py:Templater.processattrib", "lib/sldr/xmltemplate.py:Templater.xpath"]}
{"id": "C109", "title": "Template variables are local to the context or loop that sets them", "statement": "What is set inside a context or foreach instruction is not visible after it. A variable instruction changes only the variable it names, and with fallback it does not change one that has a value. A foreach puts, for each node its path finds and in order, what its content gives there, each made from the variables of the place where the foreach stands and from its iteration variables.", "quantifier": "every instruction in every template, every context, every set of variables and every XPath evaluator", "why_tests_cant": "The variables depend on everything that was processed before, at any depth.", "anchors": ["lib/sldr/xmltemplate.py:Templater.process"]}
{"id": "C110", "title": "Merging alternates keeps the best and loses none", "statement": "When alternates of an element are merged three ways, no alternate that our document or the other one has is lost and none is made up, whatever the order in which the names are gone through; of two alternates of one name the one of the better draft is kept; an alternate that the other document did not change leaves ours as it is; one that both documents removed stays removed.", "quantifier": "every set of alternates of base, other and target, all drafts and every order of iterating over the names", "why_tests_cant": "Three dictionaries with drafts from a scale of seven, with missing entries, in any order.", "anchors": ["lib/sldr/ldml_merge.py:LdmlMerge._merge_alts"]}
{"id": "C111", "title": "A time zone is put where the zone table puts it", "statement": "Each line of zone.tab, with latitude and longitude in degrees, minutes and maybe seconds, gives its zone (under the name used in CLDR) with its country and with these angles, the sign being that of the whole angle.", "quantifier": "every line of a zone table with any country, any angles to the minute or second in any hemisphere, any zone and any comment", "why_tests_cant": "A regular expression without separators between digits, with optional parts, in four quadrants; the sign goes only with the degrees, which is seen only on the right quadrant.", "anchors": ["scripts/zonetab:latlongdeg", "scripts/zonetab:fixzones"]}
{"id": "C112", "title": "Time zones are put in the order of the zone file", "statement": "After the file of time zones was read, normalising a document puts its zone elements in the order in which the file lists the zones, and zones that are not in the file last; the order of all else is not changed by reading the file.", "quantifier": "every zone file of any length, every document and every element in it", "why_tests_cant": "The ranks are compared as texts, padded to the width of the number of lines: the widths depend on the number of lines.", "anchors": ["lib/sldr/ldml.py:Ldml.ReadTZData", "lib/sldr/ldml.py:Ldml.normalise"]}
{"id": "C113", "title": "The generated zone file has each zone once, in order", "statement": "zonetab writes one line for each zone of the table and for each of the zones Etc/GMT-14 to Etc/GMT+12, Etc/UTC and Etc/Unknown, with what was last said of the zone, ordered by country, latitude, longitude and name; read again the zones are found in this order.", "quantifier": "every zone table, with repeated zones, renamed zones, comments and lines without a place", "why_tests_cant": "Any number of lines with repetitions and renamings, and a comparison of lists of mixed length.", "anchors": ["scripts/zonetab", "lib/sldr/ldml.py:Ldml.ReadTZData"]}
{"id": "C114", "title": "Resolving the aliases of a document", "statement": "After its aliases were resolved, a document has no alias with a path in any of its elements; all other content is still there, in its order, with its attributes and text; each element with an alias has the content of the element to which the alias leads, in the place of the alias; a document without aliases is not changed; a document where no alias leads back to itself is resolved without exception, and a loop of aliases is reported.", "quantifier": "every document, of any shape and depth, with any number of aliases, to targets that have aliases themselves", "why_tests_cant": "Aliases of aliases in any arrangement, with elements changed while lists of them are read, and with objects shared between copies.", "anchors": ["lib/sldr/ldml.py:Ldml.resolve_aliases", "lib/sldr/ldml.py:_copynode", "lib/sldr/ldml_merge.py:LdmlMerge.flattenlocale"]}
{"id": "C115", "title": "The printed font rules decide as the tree does", "statement": "The rules that fontrules --literal prints, tried from the first to the last on the features of a language tag, give the font on which the decision tree decides.", "quantifier": "every decision tree, of any size and shape, and every language tag", "why_tests_cant": "All trees and all tags; a rule has only the features that are there, so that the order has to do the rest.", "anchors": ["scripts/fontrules:Classifier.treerules"]}
{"id": "C116", "title": "Simplifying the font rules loses and adds nothing", "statement": "The rules that fontrules writes for a font match a language tag exactly if one of the leaves of the tree for this font has only subtags that the tag has; rules that were left out because of shorter ones, and rules that were merged to one with a list of values, make no difference.", "quantifier": "every decision tree that does not ask for two values of the same subtag on a path, every font, every language tag", "why_tests_cant": "Combinations of subsets of features with everything seen before, and merging by scores into any of the rules made before.", "anchors": ["scripts/fontrules:Classifier.simplerules", "scripts/fontrules"]}
{"id": "C117", "title": "fontmatch finds the font of the tree", "statement": "For each language tag fontmatch finds the font, with its features, on which the decision tree decides.", "quantifier": "every decision tree and every language tag", "why_tests_cant": "All trees and tags; the order of the rules is by their size and the names of fonts, not by the tree.", "anchors": ["scripts/fontmatch:match1", "scripts/fontrules", "scripts/fontrules:fontid"]}
{"id": "C118", "title": "A locale gets the fonts of its script and region", "statement": "With a table of fonts by script and region, a locale gets the fonts of the last row that lists fonts for its script in its region, in the order of the row; if there is none, those of the last row that lists fonts for the script without a region; if there is none, no font. A locale that is not known gets Charis SIL.", "quantifier": "every table with any number of rows and regions, every locale and every answer of the tag lookup whose script has no hyphen", "why_tests_cant": "Any number of rows that overlap in scripts and regions; the tag of one region is carried on to the next within a row.", "anchors": ["scripts/sldraddfonts:read_font_data", "scripts/sldraddfonts:find_fonts_from_csv"]}
{"id": "C119", "title": "Adding fonts to a file adds just these", "statement": "When the fonts of a locale are written to its file, each of them has an entry afterwards with its type, the features that are not implied by its name and its address; other entries stay as they were, and entries keep their order. Exactly one font is the default font, and it is the one that is preferred. Writing a second time changes nothing.", "quantifier": "every table, stylesheet, file, locale, set of features and addresses, and every order in which Python goes through a set", "why_tests_cant": "Any combination of fonts that are in the table, the stylesheet and the file already; the order of a set differs between runs.", "anchors": ["scripts/sldraddfonts:write_font_data", "scripts/sldraddfonts:find_fonts_from_css", "scripts/sldraddfonts:features_set2str", "scripts/sldraddfonts:process_font"]}
{"id": "C120", "title": "The address of a font is looked for once", "statement": "The address of a font is the one that the configuration gives, or else the first of the addresses made of its name that is there. Once it is found, every later search finds the same without a request, whatever other fonts are looked for in between and whatever the network answers. A font without an address gets none, and no failure of the network ends the program.", "quantifier": "every configuration, every font name, every history of searches and every sequence of answers of the network", "why_tests_cant": "Histories of searches of any length against a network that may answer differently each time.", "anchors": ["scripts/sldraddfonts:find_url_from_fontname", "scripts/sldraddfonts:build_url_from_fontname"]}
{"id": "C121", "title": "Text functions of templates", "statement": "In a template, split gives the words of a text, firstword the first of them and findsep the one at an index, counted from the end if it is negative; an empty text has the empty text as its first word, and so has a text of blanks. default gives the first of its values that is not empty, or the empty text. choose gives its second value if the first is true and else the third. doc gives the root of a document, which is read once.", "quantifier": "every text, every value of XPath that stands for it, every index, every list of values, every history of documents read", "why_tests_cant": "Texts with any number of words and any white space between them; lists of any length; any history of calls.", "anchors": ["lib/sldr/xmltemplate.py:fn_firstword", "lib/sldr/xmltemplate.py:fn_findsep", "lib/sldr/xmltemplate.py:fn_split", "lib/sldr/xmltemplate.py:fn_default", "lib/sldr/xmltemplate.py:fn_choose", "lib/sldr/xmltemplate.py:fn_doc"]}
{"id": "C122", "title": "Three way merges with drafts end without an exception", "statement": "Merging two documents with a common base ends and raises no exception, also if drafts and alternates are taken into account, whichever of the documents are given and whatever the default for drafts is. Without drafts the result is that of the plain merge.", "quantifier": "every three documents of any depth and width, any drafts and alternates, either winner", "why_tests_cant": "Documents of any depth; the exceptions depend on combinations of drafts and alternates in three documents.", "anchors": ["lib/sldr/ldml_merge.py:LdmlMerge.merge", "lib/sldr/ldml_merge.py:LdmlMerge._merge_with_alts", "lib/sldr/ldml_merge.py:LdmlMerge._add_alt"]}
{"id": "C123", "title": "Three way merges with drafts decide child by child", "statement": "With drafts, a child that all or some of ours, theirs and the base have is decided on by its key alone: what only one side changed is as that side has it, unless the base has a better draft; of two new values that with the better draft is taken, and theirs if they are alike; what was removed on one side and not changed on the other is gone; what both changed is merged in turn. A value that is not taken is not lost.", "quantifier": "every three elements whose children have different keys, any drafts and alternates, either winner, every order of a set", "why_tests_cant": "Any number of children in any combination of presence, content, draft and alternates in three documents.", "anchors": ["lib/sldr/ldml_merge.py:LdmlMerge.merge", "lib/sldr/ldml_merge.py:LdmlMerge._merge_with_alts", "lib/sldr/ldml_merge.py:LdmlMerge._align"]}
{"id": "C124", "title": "The file of a locale is found, the same by every way", "statement": "The file of a locale is the first there is in the given directories, where a file may be in a directory itself or in that of its first letter; None is given just if there is none. Reading, merging and flattening take the same file. A locale that is listed as there is found. iterate_files gives all files with the ending, however deep, in order.", "quantifier": "every set of files, every list of directories, every tag, trees of any depth", "why_tests_cant": "Any number of directories with files in any of the places; trees of any depth.", "anchors": ["lib/sldr/ldml.py:getldml", "lib/sldr/ldml.py:iterate_files", "lib/sldr/ldml_merge.py:getldml", "scripts/ldmlmerge:find_ldml", "scripts/ldmlflatten", "scripts/sldrcoverage"]}
{"id": "C125", "title": "Flattening with several processes gives what flattening one by one gives", "statement": "However many processes ldmlflatten uses, in whatever order they do their steps and whatever each did before, each locale that is done has the file it would have if it had been flattened alone. A run that is broken off leaves whole files of the locales that are done, and for the others what was there or a beginning; no other file is changed. Every locale is done in the end.", "quantifier": "every set of files and locales, every number of processes, every schedule, every point at which the run is broken off", "why_tests_cant": "Unboundedly many interleavings of the steps of the processes, and crash points.", "anchors": ["scripts/ldmlflatten:doit", "lib/sldr/ldml_merge.py:flattenlocale", "lib/sldr/ldml_merge.py:getldml"]}
{"id": "C126", "title": "cldrimport leaves just the locales of the CLDR, each put together from its documents", "statement": "However many processes are used and in whatever order they work, after cldrimport each locale of the source has the file that its documents in main, collation, casing and segments give, in this order, and no other file is changed. With -r files of locales that are not in the source are gone, and no others. No element has the attribute references. A locale that fails is reported.", "quantifier": "every set of files and locales, every number of processes and schedule", "why_tests_cant": "Unboundedly many interleavings, sets of files and documents of any depth.", "anchors": ["scripts/cldrimport:doit", "scripts/cldrimport"]}
{"id": "C127", "title": "A tailored string with an expansion sorts like the strings it stands for", "statement": "For a rule `&ae << æ` or `&a << æ/e`, the sort key that the collation gives to `æ` follows the weights of `a` and then `e` (for the first form: the key of `ae`) and differs from them exactly at the level of the operator. A string that comes next in the chain, `<<< Æ`, follows `æ` and differs from it exactly at the level of its own operator.", "quantifier": "every DUCET, every collation for which the sort keys are made, every entry with an expansion or with a base longer than any known string, every follower of it, every level 1 to 4", "why_tests_cant": "The split depends on all entries and on the DUCET, and whether a chain goes on rightly depends on how the weights of the expansion compare with those of the base; a test takes some letters.", "anchors": ["lib/sldr/collation.py CollElement.expand", "lib/sldr/collation.py CollElement.sortkey", "lib/sldr/collation.py ducetSortKey", "lib/sldr/collation.py Collation._setSortKeys"]}
{"id": "C128", "title": "sldraddkeymans gives each language's file the addresses of its keyboards and changes nothing else", "statement": "After `sldraddkeymans -s DIR` every file of DIR has, for each Keyman keyboard whose languages lead to that file (by the tag, or by the table of bad tags; in DIR or in the directory of its first letter), the download address of the keyboard as the first `sil:url` of its `sil:kbd` element. Addresses of other keyboards, further addresses of the same one, and all of the document outside `special` are kept; files to which no language leads are unchanged; no file is made or removed. A second run changes nothing, and `-n` changes nothing. `-o` writes a report with one row per language and keyboard.", "quantifier": "every list of keyboards, every tree of files, every lookup of tags, every state of the documents (with or without drafts)", "why_tests_cant": "The result depends on all keyboards that lead to the same file by different tags and on what the file has already; a test takes a few.", "anchors": ["scripts/sldraddkeymans", "lib/sldr/ldml.py Ldml.ensure_path"]}
{"id": "C129", "title": "kbdtest succeeds exactly if typing the keys of the test file shows the expected texts", "statement": "`kbdtest KEYBOARD TESTS` types the keys of the events on the keyboard, with their modifiers and in their order, and its exit status is zero exactly if after each key the text is the one the event expects.", "quantifier": "every keyboard, every list of events", "why_tests_cant": "It is a claim on the verdict of a test program for every test file and every keyboard.", "anchors": ["scripts/kbdtest", "lib/sldr/ldml_keyboard.py Keyboard.process"]}
{"id": "C130", "title": "find and findall return exactly the elements that a path names", "statement": "`findall(path)` returns every element to which the path leads and no other, each once and in the order of the document, and `find(path)` returns the first of them or None. A step `tag[@key=\"value\"]` goes to the children with that tag and these attributes, `.` stays, and `//` goes to any depth, as in the calls of the scripts.", "quantifier": "every document, every path", "why_tests_cant": "A document has any number of elements at any depth; a test looks at one path in one file.", "anchors": ["lib/sldr/ldml.py Ldml.find", "lib/sldr/ldml.py Ldml.findall", "lib/sldr/ldml.py Ldml._process_path", "lib/sldr/ldml.py Ldml._unify_path"]}
{"id": "C131", "title": "sldrautonames fills in the missing names of each language", "statement": "`sldrautonames DIR` gives every locale file of DIR that has a `sil:identity` not from the CLDR the English name and the local name of its language where these are missing, with the apostrophe written as in the main exemplar; names that are there are kept.", "quantifier": "every directory of locale files, every list of language tags", "why_tests_cant": "It is a claim for all files, whatever they have already.", "anchors": ["scripts/sldrautonames", "lib/sldr/ldml.py Ldml.find"]}
{"id": "C132", "title": "sldrcoverage reports how much of each coverage level a locale has", "statement": "`sldrcoverage` writes a row for each locale that is known and has data: its source, and for each level the number of its requirements that the paths of the file meet, in percent of those that English meets. The rows are ordered by their total. With `--level` only that level is counted. The currency of a region is the first one that is in force today.", "quantifier": "every set of requirements, every set of locale files, every date", "why_tests_cant": "The figures depend on all requirements and all paths of a file; a test takes one file.", "anchors": ["scripts/sldrcoverage", "lib/sldr/ldml.py Ldml.as_xpath", "lib/sldr/ldml.py Ldml.find"]}
{"id": "C133", "title": "fixsldr brings old files to the present form and loses nothing", "statement": "`fixsldr` writes for every input file a document in which `orientation` has become `layout/orientation` without its default values, `status` and `regionInfo` have become attributes of `sil:identity` and drafts of the exemplars, `code` of language and script has become `type`, and the language has a comment with its English name; everything else is as it was. This holds whatever the number and the order of the processes.", "quantifier": "every document, every set of files, every schedule of the processes", "why_tests_cant": "A test fixes one document; that nothing else changes, and that processes do not disturb one another, is a claim about all of them.", "anchors": ["scripts/fixsldr doit", "scripts/fixsldr add_silidentity", "scripts/fixsldr langmap"]}
{"id": "C134", "title": "A stylesheet gives a locale its fonts and features", "statement": "From a stylesheet `sldraddfonts` takes for each locale the fonts of its last font property that has one to be used, under their present names and without those to be ignored, and the features of its last rule that has any, listed ones and those implied by the fonts used. Fonts and features belong together. Every locale that a selector names gets them. The report on features never fails.", "quantifier": "every stylesheet with any number of rules and properties, every configuration, every answer of the tag lookup", "why_tests_cant": "Any number of rules whose locales may have the same full tag; later rules replace parts of earlier ones.", "anchors": ["scripts/sldraddfonts:read_feature_data", "scripts/sldraddfonts:report_css_information"]}
{"id": "C135", "title": "ldmlnormalize normalises every file and nothing else", "statement": "Run on a directory, `ldmlnormalize` writes each XML file of the directory and of its subdirectories, normalised, to the same place in the output directory (or to its own place), reports those that cannot be loaded and goes on, and changes nothing else. A second run changes nothing. With --validate the files written are validated.", "quantifier": "every directory listing, every contents of files, every output directory", "why_tests_cant": "Any number of files and names; that nothing else changes is about all paths.", "anchors": ["scripts/ldmlnormalize"]}
{"id": "C136", "title": "icubreaktext turns every segmentation into rules", "statement": "For every locale with a segmentation of the type asked for, `icubreaktext` makes rules in which each variable stands once, as it was defined last, after all variables that its definition uses, followed by all rules in the order of their numbers. It never fails for a segmentation that CLDR allows, and says so if there is none.", "quantifier": "every segmentation with any number of variables and rules, every reference between them", "why_tests_cant": "The graph of references may have any shape; the order must be right for all of them.", "anchors": ["scripts/icubreaktext"]}
{"id": "C137", "title": "icubreaktext breaks lines where ICU does and loses nothing", "statement": "For each line of the input `icubreaktext` writes one line: the line without white space around it, with a bar at each place where ICU breaks it, and nowhere else. Leaving out the bars gives the line.", "quantifier": "every text, every list of breaks that an ICU iterator may give", "why_tests_cant": "Texts of any length with breaks anywhere; ICU counts in UTF-16, Python in characters.", "anchors": ["scripts/icubreaktext"]}
{"id": "C138", "title": "A transform applies in all its contexts and nowhere else", "statement": "Adding a transform to a rule gives the rule the attributes of the transform in every combination of a text that matches `before` and one that matches `after`; a context that is not given is no condition. What the rule gives at a place of a text is what belongs to the context that fits there, or what was added without context.", "quantifier": "every rule, every transform, every text and place", "why_tests_cant": "Patterns may match any number of texts; rules may have been added to before.", "anchors": ["lib/sldr/ldml_keyboard.py:Rule.merge", "lib/sldr/ldml_keyboard.py:Rule._coremerge", "lib/sldr/ldml_keyboard.py:Rule.context_match"]}
{"id": "C139", "title": "The parents of a locale are those the supplemental data says it has", "statement": "Reading supplementalData.xml succeeds just when it has a parentLocales element whose parentLocale elements all have locales; asking a document for the parents of its locale then gives the parents that the first parentLocales element says the locale has, in document order, whether or not the data was read before. A fallback element in the document overrides this.", "quantifier": "every supplemental file, every document, every locale", "why_tests_cant": "Files may list any locales any number of times in any number of elements.", "anchors": ["lib/sldr/ldml.py:Ldml.ReadSupplementalData", "lib/sldr/ldml.py:Ldml.get_parent_locales"]}
{"id": "C140", "title": "Comments with directives become attributes of the element before them", "statement": "proccldrcomments gives the document without comments: the same elements at the same places with the same tags and texts. A comment `@NAME`, `@NAME:value` gives the attribute name (in lower case, in the namespace of the CLDR types) to the element whose end tag comes last before it; the last such comment counts, and no other attribute changes. With -r the attributes become comments again.", "quantifier": "every document, every comment", "why_tests_cant": "Trees of any shape, comments in any number at any places and of any text.", "anchors": ["scripts/proccldrcomments:ETWriter.parse", "scripts/proccldrcomments:ETWriter._proc_comment"]}
{"id": "C141", "title": "Pretty printing a tailoring keeps its rules", "statement": "icupretty writes the entries of the tailoring it reads in the order of the text, and what it writes reads as the same rules. --adddot adds a rule for each string that ends in U+103A; --alphabet minimises against the characters given.", "quantifier": "every tailoring, every option", "why_tests_cant": "Tailorings are texts of any length with any strings.", "anchors": ["scripts/icupretty", "lib/sldr/collation.py:Collation.parse", "lib/sldr/collation.py:Collation.asICU"]}
{"id": "C142", "title": "hackldmlattribs adds one line after each that declares drafts", "statement": "The output file has the lines of the input file with one extra line after each line that has `attribute draft`; nothing else changes, also not when run again or in place.", "quantifier": "every content of files, every pair of names", "why_tests_cant": "Files of any length; both names may be the same.", "anchors": ["scripts/hackldmlattribs"]}
{"id": "C143", "title": "Rounding does not disturb a tailoring", "statement": "With the weights calculated in floating point, each entry of a tailoring is still next to its base on the side and at the level of its relation, all entries stay between the neighbours of their reset point in the DUCET, and what is put before a reset point stays before it with all that is chained to it.", "quantifier": "every rounding function of IEEE doubles, every DUCET with 16 bit weights, every tailoring with (befores + 1) * entries < 100000", "why_tests_cant": "The increment depends on the number of entries and each sum is rounded: the errors add up along chains of any length.", "anchors": ["lib/sldr/collation.py:Collation._setSortKeys", "lib/sldr/collation.py:CollElement.sortkey"]}
{"id": "C144", "title": "The parser tells the tree builder all of a document and nothing else", "statement": "Reading a document gives the tree builder each start tag with its name as {uri}local and all its attributes in order, each end tag, text and comment, in the order of the document, whatever came before; document type declarations and processing instructions leave no trace; a reference to an entity that is not declared is always an error.", "quantifier": "every sequence of start tags, end tags, texts, comments and other markup that expat reports", "why_tests_cant": "Names go through a memo that lives as long as the parser, and the handling of a document type declaration is a state machine over any sequence of pieces.", "anchors": ["lib/sldr/py3xmlparser.py:XMLParser", "lib/sldr/ldml.py:Ldml.__init__"]}
{"id": "C145", "title": "ldmlmerge writes the merged document and touches nothing else", "statement": "The command writes the merge of the named files, sorted, to its output and changes no other file. In the code: with -g, without -o, and with -v and two files it raises an exception for all inputs, and the output file is emptied before the document is ready.", "quantifier": "every command line, every file system, every document, every repository", "why_tests_cant": "A test shows one command line on one set of files; that an option can never work is about all of them.", "anchors": ["scripts/ldmlmerge"]}
{"id": "C146", "title": "Spelling dictionaries can be read", "statement": "Hunspell(name) reads the affix file and the list of words. In the code: it raises an exception for all files, and the list of words alone can be read only if it is empty.", "quantifier": "every file system and every name", "why_tests_cant": "One failing test shows one file; that no file can be read is about all of them.", "anchors": ["lib/sldr/hunspell.py:Hunspell", "lib/sldr/hunspell.py:Dic", "lib/sldr/hunspell.py:Aff"]}
{"id": "C147", "title": "What is exported to a spreadsheet is imported again", "statement": "If a template spreadsheet is filled from an LDML document and the filled spreadsheet is then imported, the import makes exactly the changes for the values that the document has at the places the template names, and for the values of the template where the document has none. In particular, from an empty template come back the values of the document, no more and no fewer, at the same places.", "quantifier": "for all templates (any number of values and of tables of the four kinds, any repeated empty cells), all documents and all values", "why_tests_cant": "The export splits repeated cells, shifts what is after them and writes at computed columns, while the import counts columns in its own way; only for all templates and values can one say that the two agree.", "anchors": ["lib/sldr/sheet.py:Sheet.process", "lib/sldr/sheet.py:Sheet._writeodsitem", "lib/sldr/sheet.py:Sheet._action2dx_ods", "lib/sldr/sheet.py:Sheet._odssetup"]}
{"id": "C148", "title": "sheetldml writes one file, the one that was asked for", "statement": "A run of sheetldml that comes to its end writes exactly one file, as the last thing it does: the output named by -o, or without -o the LDML file. A run that fails writes none. -t together with -o ends it with code 2 before any file is opened. With -o the LDML file is only read.", "quantifier": "for all arguments and whichever files cannot be read or written, and whether or not the rows can be processed", "why_tests_cant": "It is about every point at which a run can fail and all combinations of options.", "anchors": ["scripts/sheetldml", "lib/sldr/sheet.py:Sheet.__init__", "lib/sldr/sheet.py:Sheet.writeldml", "lib/sldr/sheet.py:Sheet.writeods"]}
{"id": "C149", "title": "--skipstubs leaves out locales that say nothing, and only those", "statement": "ldmlflatten --skipstubs never stores a document whose only element is its identity, and what it stores is what is stored without the option. In the code a locale whose own file has only an identity is left out too, even if its flattened document says much.", "quantifier": "every set of files, every locale, every setting of the other options", "why_tests_cant": "It concerns all documents and all that they inherit, with all combinations of the options.", "anchors": ["lib/sldr/ldml_merge.py: LdmlFlatten.flattenlocale", "scripts/ldmlflatten"]}
{"id": "C150", "title": "Flattening in one process gives the same documents as in many", "statement": "The option -s of ldmlflatten, for one process, does not change the documents that are made. In the code it does: imports in tailorings are put in only with -s, and an empty tailoring is an error only with -s.", "quantifier": "every set of files, every locale, every setting of the other options", "why_tests_cant": "The claim compares two runs for all files; samples without imports or empty tailorings show no difference.", "anchors": ["lib/sldr/ldml_merge.py: LdmlFlatten.flattenlocale", "lib/sldr/ldml.py: Ldml.flatten_collation", "scripts/ldmlflatten"]}
{"id": "C151", "title": "Imports in tailorings are replaced by what they name", "statement": "Flattening with -s replaces each import in a tailoring of the document by the tailoring of the named type in the named language, itself with its imports replaced, from the document or from the file of that language; all else in the tailorings is kept. In the code the file's own tailoring is taken if the name of the language is merely the end of the file's name, imports that name a region are dropped, and so are imports that name a type by its short name (trad, dict, gb2312), except phonebk.", "quantifier": "every set of files, every nesting of imports, every text", "why_tests_cant": "Imports nest to any depth across any number of files.", "anchors": ["lib/sldr/ldml.py: Ldml.flatten_collation", "lib/sldr/ldml_merge.py: LdmlFlatten.flattenlocale", "lib/sldr/ldml_merge.py: LdmlFlatten.getCollator"]}
{"id": "C152", "title": "ldmlflatten does every locale and names exactly those that failed", "statement": "The command does all locales whatever happens to some, stores the document of each at its place and changes no other file, and at the end names exactly those that failed, with the reason. In the code locales without a document (skipped stubs) are named as errors of no reason, -s stops at the first failure, and a file that git does not know or a missing -o ends the command with nothing reported.", "quantifier": "every list of locales, every outcome of flattening each, every setting of the options, every state of the disk", "why_tests_cant": "Which locales fail and in which order cannot be enumerated.", "anchors": ["scripts/ldmlflatten: doit", "scripts/ldmlflatten: dogit"]}
{"id": "C153", "title": "Reordering sorts each syllable by the orders of its characters", "statement": "The reorder layer leaves the characters before the first prebase character or base alone, cuts the rest into syllables and puts the characters of each syllable in the order of their orders; those of the same order stay as typed. In the code bases that follow each other are taken as one syllable, so that a prebase character moves behind the second base.", "quantifier": "every rule set, every text, every state of the layers", "why_tests_cant": "Rule sets, texts and cuts are unbounded; the defect needs two bases after a prebase character.", "anchors": ["lib/sldr/ldml_keyboard.py:Keyboard._process_reorder", "lib/sldr/ldml_keyboard.py:Keyboard._sort", "lib/sldr/ldml_keyboard.py:Keyboard._get_charcodes"]}
{"id": "C154", "title": "sldraddfonts does each file of the tree as if it were alone", "statement": "A run of sldraddfonts over a tree gives each file the fonts it would get if it were done on its own, whatever other files there are and in whatever order they are done, then does the file of --ldml, and changes nothing else. A run that is stopped has done the files before the one at which it stopped completely, none after it, and of that file the first fonts. In the code a stylesheet without a directory ends the run before anything is written, configured addresses are used only together with a stylesheet, and one file that cannot be read ends the run.", "quantifier": "every tree, every table, stylesheet and configuration, every point at which the run is stopped, every network that answers the same each time", "why_tests_cant": "The features and the addresses are kept from file to file, so that any file may influence any later one; the point of failure is arbitrary.", "anchors": ["scripts/sldraddfonts:main", "scripts/sldraddfonts:write_all_font_data", "scripts/sldraddfonts:write_font_data", "scripts/sldraddfonts:find_url_from_fontname", "scripts/sldraddfonts:filename2locale"]}
{"id": "C155", "title": "ldmlflatten flattens, unflattens and copies as it is told", "statement": "With -r the stored document is the locale's own without what the first document of its chain has, whether or not -c is given too; with -c alone it is the locale's own document, whatever other documents and supplemental data there are; with neither it is the document filled up from its chain in order. With -A it is the same with its aliases resolved.", "quantifier": "every set of files, every locale, every table of parents, every combination of the options", "why_tests_cant": "Documents, chains and combinations of options are unbounded.", "anchors": ["scripts/ldmlflatten:main", "lib/sldr/ldml_merge.py:flattenlocale"]}
{"id": "C156", "title": "The sheets of a workbook are used one by one", "statement": "Of a workbook the sheets Core, Posix, Minimal and Basic are used, each on its own and in their order in the workbook; other sheets play no part. An empty row keeps what is above it from what is below. In the code this holds only if each of these sheets ends with an empty row: otherwise a table at the end of one sheet takes the first rows of the next one as its own.", "quantifier": "every workbook: any number of sheets with any names, rows and tables", "why_tests_cant": "The number of sheets, rows and tables is unbounded, and the rows of all sheets run through one loop.", "anchors": ["lib/sldr/sheet.py:Sheet._odssetup", "lib/sldr/sheet.py:Sheet.process"]}
{"id": "C157", "title": "A workbook and a TSV file with the same cells give the same LDML", "statement": "Whether a sheet is read from a workbook or from a TSV file with the same texts in the same columns, sheetldml makes the same changes of the LDML document. Empty cells at the ends of rows, of which the two have different numbers, play no part. In the code a line with nothing in it ends a table of the kind table2dx in the one and not in the other, and a run of ten or more empty cells before a value moves the value.", "quantifier": "every sheet: any rows with any cells", "why_tests_cant": "It compares two readers on all sheets.", "anchors": ["lib/sldr/sheet.py:Sheet._odssetup", "lib/sldr/sheet.py:Sheet._nexttsvrow", "lib/sldr/sheet.py:Sheet.process"]}
{"id": "C158", "title": "ensure_path with a text and a draft leaves the text there with a draft that good", "statement": "After ensure_path(path, text=t, draft=d) some element that the path leads to, in front or as an alternate, has the text t with the draft d or a better one; all texts that were there are still there with their drafts, but for that of t; and the same call again changes nothing.", "quantifier": "all documents, with and without drafts, all texts, drafts on the scale and names of alternates, all elements at the path with their alternates", "why_tests_cant": "The tests have one element at a path and one or two calls. The outcome depends on the alternates that earlier calls have left, for any history of calls.", "anchors": ["lib/sldr/ldml.py: Ldml.ensure_path, Ldml._unify_path, Ldml._add_inserted_node, Ldml.addnode, Ldml.change_draft"]}
{"id": "C159", "title": "ensure_path with matchdraft finds what it made", "statement": "ensure_path(path, draft=d, matchdraft=m) returns at least one element; with m='draft' or 'both' all of them have the draft d; and the same call again returns the same elements and changes nothing.", "quantifier": "all documents, with and without drafts, all drafts and names of alternates, all elements at the path with their alternates", "why_tests_cant": "The tests try two drafts on one element. Whether the new value is put in front, entered as an alternate or dropped depends on the drafts of all values at that place.", "anchors": ["lib/sldr/ldml.py: Ldml.ensure_path, Ldml._unify_path, Ldml.addnode, Ldml._add_alt_leaf, Ldml._promote"]}
{"id": "C160", "title": "What proccldrcomments writes is the document it has", "statement": "The file that proccldrcomments writes is well-formed XML and is read as the document the script has after it took in the comments: the same elements with their namespaces, the same attributes with theirs, the same children in the same order, and the same texts but for the indentation of lines.", "quantifier": "all documents, of any depth, with any names, values, texts and declarations of namespaces", "why_tests_cant": "There are no tests of the script. Names depend on all declarations of the whole document, which are collected in one table, and on which of them come later.", "anchors": ["scripts/proccldrcomments: ETWriter.parse, ETWriter.serialize_xml, ETWriter._localisens, ETWriter._nsprotectattribs, ETWriter._sortedattrs, ETWriter._protect"]}
{"id": "C161", "title": "A document that is saved with declarations low reads back as the same document", "statement": "A document that is saved without topns, as ldmlflatten and cldrimport do by default, is well-formed XML with all prefixes declared where they are used, and is read back as the same document: the same tags, attributes, texts, comments and children in the same order, whatever was saved before by the same process.", "quantifier": "all documents, of any depth, with namespaces anywhere, all sets of registered namespaces and all histories of earlier saves", "why_tests_cant": "Where a prefix is declared depends on all ancestors and on the children of each element, and on a dictionary that all saves of a process share.", "anchors": ["lib/sldr/ldml.py: ETWriter.serialize_xml, ETWriter._localisens, ETWriter._nsprotectattribs", "scripts/ldmlflatten: doit", "scripts/cldrimport: doit"]}
{"id": "C162", "title": "add_silidentity sets the given attributes and nothing else", "statement": "add_silidentity(**kws) does not raise. Afterwards the first identity/special/sil:identity of the document has the attributes given, and its other attributes as before; if there was none, it is made, with those of its parents that were missing. All other elements stay where they were, with their attributes and texts. The same call again changes nothing.", "quantifier": "all documents, with and without drafts, and all lists of attributes with different names", "why_tests_cant": "The document may have none, one or several of the three elements of the path, anywhere among its children, and any other contents; tests check a few documents.", "anchors": ["lib/sldr/ldml.py:Ldml.add_silidentity", "lib/sldr/ldml.py:Ldml.ensure_path", "scripts/ldmlflatten", "scripts/cldrimport"]}
{"id": "C163", "title": "minimise_old removes only rules that the DUCET implies", "statement": "`Collation.minimise_old()` adds no entry and changes no level, expansion or `before`; it keeps every entry with `before`; an entry that it removes hangs, over its bases, on a string that comes straight before it in the DUCET at the strength of its relation; the strings are sorted as before.", "quantifier": "every collation and every DUCET", "why_tests_cant": "Collations are unbounded chains of rules, and what is removed depends on all of them.", "anchors": ["lib/sldr/collation.py:Collation.minimise_old"]}
{"id": "C164", "title": "getnext finds the next letter of an alphabet", "statement": "`Collation.getnext(k, charlist, direction)` gives the nearest single character of the list after (or before) the place of k that has an entry and is sorted after (before) k at the first level, and None if there is none.", "quantifier": "every collation, every string, every list and both directions", "why_tests_cant": "Lists and collations are unbounded.", "anchors": ["lib/sldr/collation.py:Collation.getnext"]}
{"id": "C165", "title": "A line of key strokes is typed as written", "statement": "`Keyboard.process_string(txt)` types the key strokes that the text has in brackets, the modifiers before the key, in their order, and nothing else; the test command of the module writes the results for each line of its test file.", "quantifier": "every keyboard and every text", "why_tests_cant": "Texts and key sequences are unbounded.", "anchors": ["lib/sldr/ldml_keyboard.py:Keyboard.process_string", "lib/sldr/ldml_keyboard.py:main"]}
{"id": "C166", "title": "The printed list of all tags covers every LDML file", "statement": "Run as a program, langtags_full prints a line for every entry of its table and, for every LDML file of a locale that is not in the table, a line with the forms of a tag that has the language, script, region, variants and extensions of the file name; it prints no other lines, and the same lines on each run.", "quantifier": "every table, every directory of files and every order in which sets are gone through", "why_tests_cant": "Tables and directories are unbounded, and the order of a set changes from run to run.", "anchors": ["lib/sldr/langtags_full.py:__main__", "lib/sldr/langtags_full.py:LangTag.analyse", "lib/sldr/langtags_full.py:LangTags.add"]}
{"id": "C167", "title": "Merging with --copycomments restores the comments", "statement": "With --copycomments base or other, ldmlmerge gives every element of the result that is in that document the comments it has there, at every depth.", "quantifier": "every three documents, every alignment of their elements, every set of comments", "why_tests_cant": "Documents of any shape and depth.", "anchors": ["lib/sldr/ldml_merge.py:LdmlMerge.merge", "lib/sldr/ldml_merge.py:LdmlMerge._merge_with_alts", "scripts/ldmlmerge:--copycomments"]}
{"id": "C168", "title": "cldrimport --hg puts the revision of each locale in it", "statement": "With --hg each locale of the source is written with the number of the last revision of its files and its date, as hg tells them, in its identity. All that is written without --hg is written as well, whether one process is used or several.", "quantifier": "every set of files and locales, everything hg may say, every number of processes and schedule, with and without -r and -s", "why_tests_cant": "no file may be lost for any locale, any answer of hg and any order of the processes", "anchors": ["scripts/cldrimport:dohg", "scripts/cldrimport:doit"]}
