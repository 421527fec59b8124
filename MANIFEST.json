{
 "claims": [
  {
   "property": "C01",
   "status": "proved",
   "theorems": [
    "MM.C01_canonical",
    "MM.C01_roundtrip",
    "MM.C01_string",
    "MM.C01_injective",
    "MM.C01_components"
   ],
   "note": "Metadata paths are canonical and relative."
  },
  {
   "property": "C02",
   "status": "proved",
   "theorems": [
    "MM.C02_join",
    "MM.C02_assoc",
    "MM.C02_neutral",
    "MM.C02_len",
    "MM.C02_cancel",
    "MM.C02_str"
   ],
   "note": "Joining paths."
  },
  {
   "property": "C03",
   "status": "proved",
   "theorems": [
    "MM.C03_roundtrip",
    "MM.C03_none"
   ],
   "note": "Reference text round trip."
  },
  {
   "property": "C04",
   "status": "proved",
   "theorems": [
    "MM.C04_roundtrip"
   ],
   "note": "Metadata text round trip."
  },
  {
   "property": "C05",
   "status": "proved",
   "theorems": [
    "MM.C05_reference",
    "MM.C05_source",
    "MM.C05_config",
    "MM.C05_instance",
    "MM.C05_set",
    "MM.C05_sets",
    "MM.C05_metadata"
   ],
   "note": "Wrong versions are rejected."
  },
  {
   "property": "C06",
   "status": "proved",
   "theorems": [
    "MM.C06_local",
    "MM.C06_immediate",
    "MM.C06_unknown",
    "MM.C06_eq",
    "MM.C06_eq_local",
    "MM.C06_eq_kind"
   ],
   "note": "Metadata source round trip."
  },
  {
   "property": "C07",
   "status": "proved",
   "theorems": [
    "MM.C07_json_channel",
    "MM.C07_text_injective",
    "MM.C07_text_ascii"
   ],
   "note": "JSON survives the text channel of git."
  },
  {
   "property": "C08",
   "status": "proved",
   "theorems": [
    "MM.C08_map",
    "MM.C08_no_duplicates",
    "MM.C08_extractors",
    "MM.C08_read",
    "MM.C08_recorded",
    "MM.C08_object"
   ],
   "note": "Last write wins. C08_read, C08_recorded and C08_object are about metadata objects in any load state, which may be written, read and removed from memory between the calls."
  },
  {
   "property": "C09",
   "status": "proved",
   "theorems": [
    "MM.C09_stable",
    "MM.C09_index_run"
   ],
   "note": "Configuration indices are stable."
  },
  {
   "property": "C10",
   "status": "partial",
   "theorems": [
    "MM.C10_false",
    "MM.C10_same",
    "MM.C10_raises",
    "MM.C10_compare_partial"
   ],
   "note": "False: comparing two objects with the same content raises exactly if an extractor has more than one configuration, C10_same. C10_raises: exactly which comparisons of any two objects raise. The partial theorem covers the others."
  },
  {
   "property": "C11",
   "status": "proved",
   "theorems": [
    "MM.C11_lookup",
    "MM.C11_added",
    "MM.C11_again",
    "MM.C11_dictionary"
   ],
   "note": "For all trees, loaded or not, all paths and all failures of git; no node is used at two places of the tree."
  },
  {
   "property": "C12",
   "status": "proved",
   "theorems": [
    "MM.C12_failed",
    "MM.C12_fails_iff"
   ],
   "note": "Every failing addition, whatever the reason."
  },
  {
   "property": "C13",
   "status": "proved",
   "theorems": [
    "MM.C13_removed",
    "MM.C13_failed",
    "MM.C13_fails_iff",
    "MM.C13_again"
   ],
   "note": "For all trees, loaded or not; no node is used at two places of the tree."
  },
  {
   "property": "C14",
   "status": "partial",
   "theorems": [
    "MM.C14_harmless",
    "MM.C14_listed_partial",
    "MM.C14_lookup_partial",
    "MM.C14_succeeds_partial",
    "MM.C14_dictionary_partial",
    "MM.C14_false"
   ],
   "note": "Every listing that succeeds is exact, whatever is loaded; listing fails for empty trees that are not loaded."
  },
  {
   "property": "C15",
   "status": "partial",
   "theorems": [
    "MM.C15_contains_partial",
    "MM.C15_record_partial",
    "MM.C15_list_partial",
    "MM.C15_list_fails_partial",
    "MM.C15_elements_partial",
    "MM.C15_false"
   ],
   "note": "For every sequence of calls on a new dataset tree; C15_elements_partial: the listing of any dataset tree, in memory or stored, whatever else it holds; false for paths with the reserved name."
  },
  {
   "property": "C16",
   "status": "partial",
   "theorems": [
    "MM.C16_false",
    "MM.C16_recorded_partial",
    "MM.C16_succeeds_partial"
   ],
   "note": "False: adding a run for a path without metadata always fails, C16_false; the partial theorems cover paths with metadata, loaded or not."
  },
  {
   "property": "C17",
   "status": "partial",
   "theorems": [
    "MM.C17_read_back_partial",
    "MM.C17_published_partial",
    "MM.C17_new_process_partial",
    "MM.C17_repos_partial"
   ],
   "note": "For all object graphs and every history of a process, with one or (C17_repos_partial) any number of repositories, including writes that fail and git commands of others. Partial: names, texts and ids must be storable (C46, C49, C50), and what passes for saved below the written object must be stored as it is (C21, C51); no other loaded object may depend on the published name."
  },
  {
   "property": "C18",
   "status": "partial",
   "theorems": [
    "MM.C18_read",
    "MM.C18_purge_partial",
    "MM.C18_loads",
    "MM.C18_transparent_partial",
    "MM.C18_repos_read",
    "MM.C18_repos_loads",
    "MM.C18_repos_partial"
   ],
   "note": "For every history of a process, with one or (C18_repos_*) any number of repositories, including writes that fail and git commands of others. Partial: purging excludes tree version lists written in this process (C25) and objects that pass for saved without being stored (C21)."
  },
  {
   "property": "C19",
   "status": "partial",
   "theorems": [
    "MM.C19_content_partial",
    "MM.C19_fails",
    "MM.C19_unsaved_kept",
    "MM.C19_repos_partial"
   ],
   "note": "Failure and retention hold without assumptions; unchanged content, for every history of a process, excludes tree version lists written in this process (C25) and objects that pass for saved without being stored (C21)."
  },
  {
   "property": "C20",
   "status": "proved",
   "theorems": [
    "MM.C20_noticed",
    "MM.C20_others"
   ],
   "note": "For all object graphs."
  },
  {
   "property": "C21",
   "status": "partial",
   "theorems": [
    "MM.C21_modified_part_partial",
    "MM.C21_lost",
    "MM.C21_false"
   ],
   "note": "C21_lost: for every container and every modified part that was written on its own, writing the container does nothing and returns a reference to the old content. The partial theorem covers all containers whose parts that pass for saved are stored as they are."
  },
  {
   "property": "C22",
   "status": "partial",
   "theorems": [
    "MM.C22_write_twice_partial",
    "MM.C22_dataset_tree_partial",
    "MM.C22_file_tree_partial",
    "MM.C22_repos_partial"
   ],
   "note": "For every history of a process, with one or (C22_repos_partial) any number of repositories, including writes that fail and git commands of others; same side conditions as C17."
  },
  {
   "property": "C23",
   "status": "partial",
   "theorems": [
    "MM.C23_only_destination",
    "MM.C23_remote",
    "MM.C23_read",
    "MM.C23_purge",
    "MM.C23_no_destination",
    "MM.C23_copy",
    "MM.C23_copy_remote",
    "MM.C23_repos",
    "MM.C23_false"
   ],
   "note": "Writing, reading, purging and copying, for every outcome. C23_false: with the destination \"\" parts are written to the repositories they belong to; the other theorems hold for every non-empty realm."
  },
  {
   "property": "C24",
   "status": "partial",
   "theorems": [
    "MM.C24_copy_partial",
    "MM.C24_tree_list_false",
    "MM.C24_text_false",
    "MM.C24_bare_fails",
    "MM.C24_no_destination_fails"
   ],
   "note": "Holds for all classes but tree version lists and texts. C24_tree_list_false: no copy of a tree version list can be read. C24_text_false: copies of texts are empty. Copying without destination, and copying root records without dataset-level metadata, always fails."
  },
  {
   "property": "C25",
   "status": "partial",
   "theorems": [
    "MM.C25_false",
    "MM.C25_partial"
   ],
   "note": "False for every tree version list that was written; true for those that were only loaded."
  },
  {
   "property": "C26",
   "status": "partial",
   "theorems": [
    "MM.C26_false",
    "MM.C26_written_partial"
   ],
   "note": "Purging always fails; writing and reading back works."
  },
  {
   "property": "C27",
   "status": "partial",
   "theorems": [
    "MM.C27_partial",
    "MM.C27_added_partial",
    "MM.C27_removed_partial",
    "MM.C27_false",
    "MM.C27_removed_fails",
    "MM.C27_stale_false"
   ],
   "note": "Trees without empty inner nodes can be written while git works; additions and removals that leave no empty node behind keep this. C27_removed_fails: every removal that leaves an empty inner node behind makes the next write of the tree fail. C27_stale_false: a second write of the dataset tree then succeeds, stores nothing and returns the reference of the tree with the removed dataset."
  },
  {
   "property": "C28",
   "status": "proved",
   "theorems": [
    "MM.C28",
    "MM.C28_both"
   ],
   "note": "For every file tree, every cache size and every state without a left-over cache. C28_both adds that in a process with one repository both ways succeed while git works."
  },
  {
   "property": "C29",
   "status": "partial",
   "theorems": [
    "MM.C29_left_behind",
    "MM.C29_file_trees_fail",
    "MM.C29_not_stored",
    "MM.C29_false"
   ],
   "note": "What goes wrong, for every failing write and every later state: the cache stays, later file-tree writes fail, later metadata writes are not stored. For repositories without a left-over cache the claims C17 to C19 hold."
  },
  {
   "property": "C30",
   "status": "partial",
   "theorems": [
    "MM.C30_partial",
    "MM.C30_order_partial",
    "MM.C30_tidy_partial",
    "MM.C30_false"
   ],
   "note": "File trees and dataset trees with the same content get the same location, in any processes and repositories and written in any way; C30_order_partial is about elements put in in another order at every level. Partial: the repositories hold stored objects only in the form this code writes them, trees are of finite depth, and root records have no empty file tree (C30_false)."
  },
  {
   "property": "C31",
   "status": "partial",
   "theorems": [
    "MM.C31_write_partial",
    "MM.C31_partial",
    "MM.C31_next_process_partial",
    "MM.C31_false"
   ],
   "note": "At every point of every write, with any failures, of any sequence of processes; each published name shows the old or the whole new content. Partial: false for a process that goes on after a failed file-tree write (C31_false); objects must not be marked as saved with unsaved parts."
  },
  {
   "property": "C32",
   "status": "proved",
   "theorems": [
    "MM.C32_nested",
    "MM.C32_set",
    "MM.C32_set_fails",
    "MM.C32_get",
    "MM.C32_list",
    "MM.C32_elements",
    "MM.C32_versions",
    "MM.C32_versions_order",
    "MM.C32_all",
    "MM.C32_dictionary"
   ],
   "note": "Set, get and listings of version lists and tree version lists, in every load state; C32_dictionary is about any sequence of calls, C32_nested shows that the flat list of the model is the nested dictionary of the code."
  },
  {
   "property": "C33",
   "status": "partial",
   "theorems": [
    "MM.C33_version_list_partial",
    "MM.C33_tree_list_partial"
   ],
   "note": "All entries are in the copy, for version lists; for tree version lists they are in the destination, but the copy cannot be read (C24_tree_list_false)."
  },
  {
   "property": "C34",
   "status": "partial",
   "theorems": [
    "MM.C34_set_partial",
    "MM.C34_get",
    "MM.C34_list",
    "MM.C34_false"
   ],
   "note": "Holds for loaded sets. C34_false: after set_version_list on a set that is not loaded every later lookup fails."
  },
  {
   "property": "C35",
   "status": "partial",
   "theorems": [
    "MM.C35_repository",
    "MM.C35_result",
    "MM.C35_returned",
    "MM.C35_missing",
    "MM.C35_none",
    "MM.C35_none_top",
    "MM.C35_unchanged",
    "MM.C35_unchanged_partial",
    "MM.C35_false"
   ],
   "note": "Every request in every sound state, with every failure of git commands. A lookup never writes to the repository, it succeeds exactly if all required elements are there. C35_false: it can add an entry to a version list in memory when the record is found in one of the two views only; C35_unchanged covers all other cases."
  },
  {
   "property": "C36",
   "status": "proved",
   "theorems": [
    "MM.C36_created",
    "MM.C36_again",
    "MM.C36_kept",
    "MM.C36_new"
   ],
   "note": "Every request in every sound state, loaded or not, with every failure of git commands."
  },
  {
   "property": "C37",
   "status": "partial",
   "theorems": [
    "MM.C37_created_partial",
    "MM.C37_stored_partial",
    "MM.C37_false"
   ],
   "note": "A record that the call creates carries the requested id and version, also in what a lookup finds later. C37_false: a request finds the record of another dataset, because the tree version list is indexed by version and path only."
  },
  {
   "property": "C38",
   "status": "partial",
   "theorems": [
    "MM.C38_entered_partial",
    "MM.C38_shared_partial",
    "MM.C38_false"
   ],
   "note": "After a call that creates the record both views lead to the same object, hence to the same content. C38_false: after a second session that changes the record the UUID set shows the old content."
  },
  {
   "property": "C39",
   "status": "partial",
   "theorems": [
    "MM.C39_kept_partial",
    "MM.C39_false",
    "MM.C39_fault_false"
   ],
   "note": "C39_false: a session after the crash replaces the published list of versions. C39_fault_false: one failing git command does the same. The partial theorem: if both top-level objects are saved and readable, a later session keeps every element."
  },
  {
   "property": "C40",
   "status": "partial",
   "theorems": [
    "MM.C40_merge_partial",
    "MM.C40_files_partial",
    "MM.C40_conflict_partial",
    "MM.C40_succeeds_partial",
    "MM.C40_refs",
    "MM.C40_false"
   ],
   "note": "Every tree, every list of paths with names that git prints without quotes (all names that the code uses here). C40_false: with other names the new tree has two entries of the same name."
  },
  {
   "property": "C41",
   "status": "partial",
   "theorems": [
    "MM.C41_flush_partial",
    "MM.C41_add",
    "MM.C41_add_none",
    "MM.C41_nothing_lost",
    "MM.C41_always_partial",
    "MM.C41_refs",
    "MM.C41_succeeds",
    "MM.C41_false"
   ],
   "note": "Every state and every failure point; no pending reference is ever lost. C41_false: if the command that reads the tree fails, the earlier entries are lost and the flush succeeds; the partial theorems exclude just this failure."
  },
  {
   "property": "C42",
   "status": "proved",
   "theorems": [
    "MM.C42_protected",
    "MM.C42_converted"
   ],
   "note": "Every content, every crash point, every failure of every command."
  },
  {
   "property": "C43",
   "status": "partial",
   "theorems": [
    "MM.C43_partial",
    "MM.C43_no_records_partial",
    "MM.C43_tree_versions_partial",
    "MM.C43_trees_partial",
    "MM.C43_collected_partial",
    "MM.C43_false",
    "MM.C43_other_false"
   ],
   "note": "For all sequences of processes that use a repository one after the other (create, load, read, purge, edit, write, flush, others storing objects): when no object reference is pending, git reaches all that is needed to read a top-level object, except for root records that are elements of version lists; C43_collected_partial: garbage collection does not change what is read. Partial: C43_false, such root records are not reached; C43_other_false, flushing another repository first takes the pending references away; and failed writes are not in the sequences."
  },
  {
   "property": "C44",
   "status": "partial",
   "theorems": [
    "MM.C44_nothing_lost_partial",
    "MM.C44_flushed_partial",
    "MM.C44_kept_partial"
   ],
   "note": "Every number of processes and every order of their git commands and lock calls, with failing commands and processes that end at any point. Partial: the command that reads the tree must not fail by itself (C41_false shows what happens otherwise)."
  },
  {
   "property": "C45",
   "status": "partial",
   "theorems": [
    "MM.C45_exclusive_partial",
    "MM.C45_outermost_partial",
    "MM.C45_apart_partial",
    "MM.C45_unlock",
    "MM.C45_false"
   ],
   "note": "Every number of processes, every sequence of lock calls, unlock calls and ends of processes. The partial theorems ask that each process uses one path for one repository. C45_false: with two paths for one repository the lock is not exclusive."
  },
  {
   "property": "C46",
   "status": "partial",
   "theorems": [
    "MM.C46_names_partial",
    "MM.C46_false",
    "MM.C46_newline_fails"
   ],
   "note": "False for names with a newline, true for every other name git can hold."
  },
  {
   "property": "C47",
   "status": "proved",
   "theorems": [
    "MM.C47",
    "MM.C47_json",
    "MM.C47_tree",
    "MM.C47_names",
    "MM.C47_objects",
    "MM.C47_separate",
    "MM.C47_local",
    "MM.C47_classes",
    "MM.C47_absolute",
    "MM.C47_kept",
    "MM.C47_works",
    "MM.C47_stuck"
   ],
   "note": "For all histories of any number of remotes with different SHA-256 names. The hash hypothesis is only about objects that the remote itself has held. C47_stuck is a finding about an interrupted git init."
  },
  {
   "property": "C48",
   "status": "proved",
   "theorems": [
    "MM.C48_wrong_class",
    "MM.C48_old_names"
   ],
   "note": "Any class of object, any reference, any state."
  },
  {
   "property": "C49",
   "status": "partial",
   "theorems": [
    "MM.C49_text",
    "MM.C49_text_false",
    "MM.C49_channel_exact",
    "MM.C49_false"
   ],
   "note": "C49_text: whatever happened before, a written text object is read back with its text exactly if newlines are its only line separators and it does not end with one; for other texts the property is false (C49_text_false)."
  },
  {
   "property": "C50",
   "status": "partial",
   "theorems": [
    "MM.C50_record_partial",
    "MM.C50_absent_false",
    "MM.C50_uuid",
    "MM.C50_foreign"
   ],
   "note": "C50_foreign: whoever wrote a root record, the identifier and version that are read are those of its JSON text, and the version is absent exactly if it is null. C50_record_partial: every identifier and every version string survive writing and reading a record, whatever happened before. C50_absent_false: the property is false for every record with an absent value: an absent version is read back as the string None, and a record without identifier cannot be read."
  },
  {
   "property": "C51",
   "status": "partial",
   "theorems": [
    "MM.C51_stored_partial",
    "MM.C51_repeated_partial",
    "MM.C51_false",
    "MM.C51_file_tree_false"
   ],
   "note": "C51_false: a failed write, repeated with git working, stores nothing. C51_file_tree_false: after a failed file-tree write no repetition succeeds. C51_stored_partial, C51_repeated_partial: after any number of failed attempts without force_write and with any git failures, content in memory is unchanged, and the repeated write succeeds once git works and stores the original content; partial: no object to be written passes for saved while a part of it is not saved, no attempt fails inside a file tree."
  },
  {
   "property": "C52",
   "status": "partial",
   "theorems": [
    "MM.C52_partial",
    "MM.C52_fails",
    "MM.C52_false"
   ],
   "note": "C52_partial: lists whose elements have no empty node inside are written while git works, the elements may be empty. C52_fails: whenever an element was stored empty and has not been looked into, the changed list cannot be written."
  },
  {
   "property": "C53",
   "status": "partial",
   "theorems": [
    "MM.C53_list_partial",
    "MM.C53_false"
   ],
   "note": "Empty tree version lists are written and read back in every state. C53_false: an empty UUID set can never be written."
  },
  {
   "property": "C54",
   "status": "proved",
   "theorems": [
    "MM.C54_reference",
    "MM.C54_source",
    "MM.C54_config",
    "MM.C54_instance",
    "MM.C54_set",
    "MM.C54_sets",
    "MM.C54_metadata"
   ],
   "note": "Every JSON value, every nesting position."
  },
  {
   "property": "C55",
   "status": "partial",
   "theorems": [
    "MM.C55_loaded_partial",
    "MM.C55_false"
   ],
   "note": "Holds for trees whose inner nodes are loaded; C55_false: not for others."
  },
  {
   "property": "C56",
   "status": "partial",
   "theorems": [
    "MM.C56_set_metadata",
    "MM.C56_set_file_tree",
    "MM.C56_no_file_tree",
    "MM.C56_false"
   ],
   "note": "Setting and getting both parts in every load state. C56_false: get_dataset_level_metadata fails when there is none, it does not return None."
  },
  {
   "property": "C57",
   "status": "partial",
   "theorems": [
    "MM.C57_history_partial",
    "MM.C57_partial",
    "MM.C57_repos_partial"
   ],
   "note": "Every object in every history of a process, with one or (C57_repos_partial) any number of repositories, including writes that fail and git commands of others. Partial: objects with an empty node inside a tree or an empty UUID set cannot be written (C27_false, C53_false); what passes for saved must be stored as it is."
  },
  {
   "property": "C58",
   "status": "proved",
   "theorems": [
    "MM.C58"
   ],
   "note": "Every object graph, every destination, every outcome."
  },
  {
   "property": "C59",
   "status": "partial",
   "theorems": [
    "MM.C59_element_partial",
    "MM.C59_element_works_partial",
    "MM.C59_metadata_partial",
    "MM.C59_version_list_partial",
    "MM.C59_again_partial",
    "MM.C59_fails",
    "MM.C59_bare_fails"
   ],
   "note": "For every history of a process with one repository and every failing command. C59_fails: elements of a purged list, and new version lists of a UUID set, cannot be put back. C59_bare_fails: neither can root records without dataset-level metadata."
  },
  {
   "property": "C60",
   "status": "proved",
   "theorems": [
    "MM.C60_contains",
    "MM.C60_added",
    "MM.C60_deleted",
    "MM.C60_added_listed",
    "MM.C60_deleted_listed",
    "MM.C60_fails"
   ],
   "note": "Membership, records and listing, for trees in memory or stored."
  },
  {
   "property": "C61",
   "status": "partial",
   "theorems": [
    "MM.C61_copied",
    "MM.C61_works_partial",
    "MM.C61_only_destination",
    "MM.C61_immediate",
    "MM.C61_name_fails",
    "MM.C61_name_stored",
    "MM.C61_missing",
    "MM.C61_empty",
    "MM.C61_blank"
   ],
   "note": "Copying works for references that are hashes, and paths without characters special to the shell. C61_name_fails, C61_name_stored and C61_missing show that the other cases fail and leave an object in the destination; C61_empty that a missing empty object is copied; C61_blank that a blank in a path makes reading and copying into a repository impossible in every state."
  },
  {
   "property": "C62",
   "status": "partial",
   "theorems": [
    "MM.C62_partial"
   ],
   "note": "For processes that work with any number of repositories, all object graphs and load states, and all failures. Partial: what is copied must be storable and hold no Text (C24), and no tree version list (C24_tree_list_false); what passes for saved in the list must be stored as it is (C21)."
  },
  {
   "property": "C63",
   "status": "partial",
   "theorems": [
    "MM.C63_published_partial",
    "MM.C63_found_partial",
    "MM.C63_listed_partial",
    "MM.C63_sessions_partial"
   ],
   "note": "For all states of the saving processes and of the reading process. Partial: what passes for saved in the objects that are saved must be stored as it is (C21), and git does not fail while reading (C39_fault_false shows what happens otherwise)."
  },
  {
   "property": "C64",
   "status": "proved",
   "theorems": [
    "MM.C64_saved",
    "MM.C64_listed",
    "MM.C64_stocked"
   ],
   "note": "For all call sequences of one session, from any repository that earlier sessions left. Outside the statement: processes that go on after saving (C21), replacing, removing and purging."
  },
  {
   "property": "C65",
   "status": "proved",
   "theorems": [
    "MM.C65_compare",
    "MM.C65_symmetric",
    "MM.C65_indices",
    "MM.C65_extractors"
   ],
   "note": "For all histories, and C65_indices and C65_extractors for all metadata objects, as far as they are loaded (C69 for others). The statement is about comparisons that give an answer; C10_false shows that others raise."
  },
  {
   "property": "C66",
   "status": "proved",
   "theorems": [
    "MM.C66_kept"
   ],
   "note": "For any number of sessions with any calls. Outside the statement: replacing, removing and purging, processes that go on after saving, and sessions that are told by a failing read that there are no top-level objects (C39_fault_false)."
  },
  {
   "property": "C67",
   "status": "partial",
   "theorems": [
    "MM.C67_false",
    "MM.C67_lost",
    "MM.C67_last_partial"
   ],
   "note": "False for the process that saves first (concrete witness, and for every overlapping session); proved for the process that saves last. Sessions that follow each other are C66."
  },
  {
   "property": "C68",
   "status": "proved",
   "theorems": [
    "MM.C68_kept"
   ],
   "note": "Any number of processes and interleavings; failing and stopped writes included. Without the lock it is false (C67_false). Outside the statement, as in C66: replacing, removing and purging, processes that go on with their objects after saving or after a failed write, and sessions that are told by a failing read that there are no top-level objects (C39_fault_false)."
  },
  {
   "property": "C69",
   "status": "partial",
   "theorems": [
    "MM.C69_length_partial",
    "MM.C69_length_false",
    "MM.C69_length_stored",
    "MM.C69_equal_partial",
    "MM.C69_equal_false",
    "MM.C69_json_partial",
    "MM.C69_json_false"
   ],
   "note": "False: these functions look only at memory. For every unloaded object in every process that reads and purges: length zero, equal to every other unloaded one, JSON text of an empty object. Proved for loaded objects."
  },
  {
   "property": "C70",
   "status": "partial",
   "theorems": [
    "MM.C70_in_partial",
    "MM.C70_get_partial",
    "MM.C70_false",
    "MM.C70_node_partial",
    "MM.C70_node_false"
   ],
   "note": "False: every inner node is in the tree too, and get_metadata raises an AssertionError for it (for all proper prefixes of paths with elements); for tree nodes no path with several components is found. Proved: `in` is True exactly if there is anything at the path, get_metadata returns the metadata, None or raises, for all trees and paths; for tree nodes, paths with one component."
  },
  {
   "property": "C71",
   "status": "proved",
   "theorems": [
    "MM.C71_opens",
    "MM.C71_answered",
    "MM.C71_saves",
    "MM.C71_again"
   ],
   "note": "Opening, every request, and saving both top-level objects succeed while git works, after any calls of a session, during which any git command may have failed (requests for new versions of root datasets must not fail halfway, C74), and what a session saves can be opened and worked on again. That the entries of the trees in the repository have hashes (HashTrees), as git makes sure, is assumed for each session here; C72 proves it for all repositories that began empty."
  },
  {
   "property": "C72",
   "status": "proved",
   "theorems": [
    "MM.C72_opens",
    "MM.C72_answered",
    "MM.C72_saves"
   ],
   "note": "For all histories of sessions from an empty repository, with git commands that fail at any time (where requests are Mild, see C74) and writes that stop at any command; no assumption about the repository besides the absence of hash collisions. What earlier sessions saved is C66 and C68; a first session that stopped between the two writes leaves a repository that opens, but its tree version list is replaced (C39_false)."
  },
  {
   "property": "C73",
   "status": "proved",
   "theorems": [
    "MM.C73_opens",
    "MM.C73_answered",
    "MM.C73_saves",
    "MM.C73_saves_both",
    "MM.TeamRun.crew"
   ],
   "note": "For all numbers of processes, all interleavings, all stops, all failures of git (where requests are Mild, see C74; new top-level objects are made only while git works, see C75), and all changes by others. TeamRun.crew: these runs are runs of C68, so that what they save is kept."
  },
  {
   "property": "C74",
   "status": "partial",
   "theorems": [
    "MM.C74_answered_partial",
    "MM.C74_saves_partial",
    "MM.C74_false"
   ],
   "note": "False: C74_false is a session in which one request fails, both saves succeed, and the next session can never save. Proved for all sessions in which no request fails halfway for a new version of a root dataset (Mild); what is left is a history in the sense of C72."
  },
  {
   "property": "C75",
   "status": "partial",
   "theorems": [
    "MM.C75_partial",
    "MM.C75_fails",
    "MM.C75_denied",
    "MM.C75_lost",
    "MM.C75_false"
   ],
   "note": "False for every repository: if the first git command fails, the answer is that there is no metadata (C75_fails, C75_denied), and if the process saves, every dataset that it did not list is gone (C75_lost; C75_false is a run in which every call succeeds). C75_partial: while git works, after all histories of sessions, the answer is given exactly if no UUID set was published."
  },
  {
   "property": "C76",
   "status": "proved",
   "theorems": [
    "MM.C76_kept",
    "MM.C76_added",
    "MM.C76_filed",
    "MM.C76_more",
    "MM.C76_new"
   ],
   "note": "For calls made one after the other by one process; the repository has a history in the sense of C72. Saving assumes no hash collision in the log that the save produces."
  },
  {
   "property": "C77",
   "status": "proved",
   "theorems": [
    "MM.C77_fresh"
   ],
   "note": "For all outcomes of git commands. The case of a record that exists is C37."
  },
  {
   "property": "C78",
   "status": "proved",
   "theorems": [
    "MM.C78_opens",
    "MM.C78_current",
    "MM.C78_opened_keeps",
    "MM.C78_keeps",
    "MM.C78_again",
    "MM.C78_saved"
   ],
   "note": "For processes that have not cached the repository with cache_realm. The top-level objects have to be got again; those of an earlier session keep showing what they showed."
  },
  {
   "property": "C79",
   "status": "partial",
   "theorems": [
    "MM.C79_reached_partial",
    "MM.C79_collected_partial",
    "MM.C79_saved_partial",
    "MM.C79_false"
   ],
   "note": "Holds for the tree version list with everything in it. False for the UUID set (C79_false): a record that a session gets from the UUID set and changes is not protected. For one repository and sessions in new processes that do not overlap; saving and flushing are successful."
  }
 ]
}