{"id": "C01", "title": "Metadata paths are canonical and relative", "statement": "Every metadata path built from a string is relative, has only components that are non-empty, different from '.', and free of '/', and building a path from the string form of a path gives the same path back.", "quantifier": "every string, including absolute ones, repeated slashes, dots and unusual characters", "why_tests_cant": "the string space is infinite and the normalisation interacts with the string form of the empty path", "anchors": ["dataladmetadatamodel/metadatapath.py:MetadataPath.__new__", "dataladmetadatamodel/metadatapath.py:MetadataPath.__str__"]}
{"id": "C02", "title": "Joining metadata paths is concatenation", "statement": "Joining two metadata paths concatenates their components: it is associative, the empty path is neutral on both sides, lengths add up, and two different paths stay different after joining with a common prefix.", "quantifier": "every pair and triple of metadata paths", "why_tests_cant": "algebraic laws range over all paths", "anchors": ["dataladmetadatamodel/metadatapath.py:MetadataPath", "dataladmetadatamodel/mtreenode.py:MTreeNode.get_paths_recursive", "dataladmetadatamodel/versionlist.py:VersionList.deepcopy_impl"]}
{"id": "C03", "title": "References survive serialisation", "statement": "Turning a reference into JSON text and reading it back gives an equal reference; a none reference stays a none reference.", "quantifier": "every class name and every location, present or absent", "why_tests_cant": "needs every string, with arbitrary characters", "anchors": ["dataladmetadatamodel/mapper/reference.py:Reference.to_json_str", "dataladmetadatamodel/mapper/reference.py:Reference.from_json_str"]}
{"id": "C04", "title": "Metadata survives serialisation", "statement": "A metadata object serialised to JSON text and read back has exactly the same extractors, configurations and runs, in the same order, whatever sequence of extractor runs built it.", "quantifier": "every sequence of add_extractor_run calls with arbitrary JSON parameters and content", "why_tests_cant": "the history and the nested JSON values are unbounded", "anchors": ["dataladmetadatamodel/metadata.py:Metadata.to_json", "dataladmetadatamodel/metadata.py:Metadata.init_from_json", "dataladmetadatamodel/metadata.py:MetadataInstanceSet.from_json_obj"]}
{"id": "C05", "title": "Objects of another format version are rejected", "statement": "Reading a serialised reference, metadata source, extractor configuration, metadata instance, instance set or metadata object gives no object if it, or any such object nested in it, carries a format version other than the supported one; nothing is silently accepted.", "quantifier": "every JSON value and every nesting position", "why_tests_cant": "nesting depth and position are unbounded", "anchors": ["dataladmetadatamodel/__init__.py:check_serialized_version", "dataladmetadatamodel/metadata.py", "dataladmetadatamodel/mapper/reference.py:Reference.from_json_obj"]}
{"id": "C06", "title": "Metadata sources survive serialisation", "statement": "A metadata source (local git or immediate) written as JSON and read back is equal to the original and of the same kind; JSON without or with an unknown source type yields no source.", "quantifier": "every repository path, object reference and JSON content", "why_tests_cant": "ranges over all content values", "anchors": ["dataladmetadatamodel/metadatasource.py:MetadataSource.from_json_obj", "dataladmetadatamodel/metadatasource.py:LocalGitMetadataSource", "dataladmetadatamodel/metadatasource.py:ImmediateMetadataSource"]}
{"id": "C07", "title": "Serialised JSON survives the git text channel", "statement": "JSON text written to git and read back through the line-based text channel parses to the JSON value that was written.", "quantifier": "every JSON value: arbitrary unicode strings, nesting, numbers", "why_tests_cant": "the channel splits on many line separators; only a proof covers all strings", "anchors": ["dataladmetadatamodel/mapper/gitmapper/gitbackend/subprocess.py:git_load_str", "dataladmetadatamodel/mapper/gitmapper/gitbackend/subprocess.py:git_save_json", "dataladmetadatamodel/mapper/gitmapper/gitbackend/subprocess.py:git_load_json"]}
{"id": "C08", "title": "Metadata is a last-write-wins map", "statement": "A metadata object answers queries as a map from (extractor name, configuration) to the most recent run added for that pair; runs for other pairs are never affected; two equal configurations are never listed twice.", "quantifier": "every sequence of add_extractor_run calls, with configurations compared as Python dictionaries", "why_tests_cant": "all histories, and order-insensitive comparison of nested parameters", "anchors": ["dataladmetadatamodel/metadata.py:MetadataInstanceSet.add_metadata_instance", "dataladmetadatamodel/metadata.py:Metadata.add_extractor_run", "dataladmetadatamodel/metadata.py:MetadataInstanceSet.get_instance_for_configuration"]}
{"id": "C09", "title": "Configuration indices are stable", "statement": "Once a configuration has an index in an instance set, every later run keeps that index; every listed index has exactly one run whose configuration is the one listed at that index.", "quantifier": "every sequence of runs, including serialisation round trips in between", "why_tests_cant": "all histories", "anchors": ["dataladmetadatamodel/metadata.py:MetadataInstanceSet"]}
{"id": "C10", "title": "Metadata objects can be compared", "statement": "Comparing two metadata objects always yields a truth value, and every metadata object equals itself.", "quantifier": "all pairs of metadata objects", "why_tests_cant": "failure depends on how many configurations were recorded", "anchors": ["dataladmetadatamodel/metadata.py:Metadata.__eq__", "dataladmetadatamodel/metadata.py:MetadataInstanceSet.__eq__"]}
{"id": "C11", "title": "Added elements are found, nothing else changes", "statement": "After an element was added to a tree at a path, a lookup of that path gives the element, and a lookup at every other path that is not a prefix of it gives what it gave before; the new prefixes are inner nodes.", "quantifier": "every tree of any depth and width, every path, loaded or not yet loaded nodes", "why_tests_cant": "unbounded trees and paths", "anchors": ["dataladmetadatamodel/mtreenode.py:MTreeNode.add_child_at", "dataladmetadatamodel/mtreenode.py:MTreeNode.get_object_at_path", "dataladmetadatamodel/filetree.py:FileTree.add_metadata"]}
{"id": "C12", "title": "A failing add leaves the tree alone", "statement": "Adding an element fails exactly when the path is empty, a proper prefix of the path is an element, or the path is already occupied; after a failure every lookup gives what it gave before.", "quantifier": "every tree, path and element", "why_tests_cant": "every conflict position on every path", "anchors": ["dataladmetadatamodel/mtreenode.py:MTreeNode.add_child_at", "dataladmetadatamodel/mtreenode.py:MTreeNode._add_children"]}
{"id": "C13", "title": "Removal removes exactly one subtree", "statement": "After a successful removal at a path, lookups at that path and below give nothing and lookups elsewhere are unchanged; removing an absent path fails and changes no lookup.", "quantifier": "every tree and path", "why_tests_cant": "unbounded trees", "anchors": ["dataladmetadatamodel/mtreenode.py:MTreeNode.remove_child_at", "dataladmetadatamodel/datasettree.py:DatasetTree.delete_subtree"]}
{"id": "C14", "title": "Path listing is complete and duplicate free", "statement": "Listing the paths of a tree yields every element exactly once, under the path by which a lookup finds it, and nothing else.", "quantifier": "every tree, partially or fully loaded or not loaded at all", "why_tests_cant": "unbounded trees and all load states", "anchors": ["dataladmetadatamodel/mtreenode.py:MTreeNode.get_paths_recursive", "dataladmetadatamodel/mtreeproxy.py:MTreeProxy.get_paths_recursive"]}
{"id": "C15", "title": "Dataset trees list exactly the added datasets", "statement": "A dataset tree contains a dataset path exactly when a dataset was added there, lookup returns the record that was added, and listing the dataset paths gives exactly those.", "quantifier": "every sequence of add_dataset calls", "why_tests_cant": "depends on a reserved name inside arbitrary user paths", "anchors": ["dataladmetadatamodel/datasettree.py:DatasetTree.add_dataset", "dataladmetadatamodel/datasettree.py:DatasetTree.__contains__", "dataladmetadatamodel/datasettree.py:DatasetTree.dataset_paths"]}
{"id": "C16", "title": "Extractor runs can be added for new files", "statement": "Adding an extractor run for a path in a file tree records the run for that path, whether or not the path already has metadata.", "quantifier": "every file tree and path", "why_tests_cant": "must hold for every tree content", "anchors": ["dataladmetadatamodel/filetree.py:FileTree.add_extractor_run", "dataladmetadatamodel/filetree.py:FileTree.get_metadata"]}
{"id": "C17", "title": "What is written out is what is read back", "statement": "If writing out an object succeeds, then an object created from the returned reference in the destination has the same content as the original, at every depth.", "quantifier": "every object graph of any size, any load state, any mixture of saved and modified parts, every pattern of failing git commands", "why_tests_cant": "object graphs, load states and histories are unbounded", "anchors": ["dataladmetadatamodel/mappableobject.py:MappableObject.write_out", "dataladmetadatamodel/mappableobject.py:MappableObject.read_in", "dataladmetadatamodel/mapper/mapper.py:Mapper"]}
{"id": "C18", "title": "Loading is transparent", "statement": "Reading an object in, loading sub-objects on demand, or purging does not change the content that lookups see.", "quantifier": "every object, every stored state, every order of loading", "why_tests_cant": "all load states and interleavings of loads", "anchors": ["dataladmetadatamodel/mappableobject.py:MappableObject.read_in", "dataladmetadatamodel/mappableobject.py:MappableObject.ensure_mapped", "dataladmetadatamodel/mappableobject.py:MappableObject.purge"]}
{"id": "C19", "title": "Purging never discards unsaved content", "statement": "If purging an object succeeds, its content can be read back unchanged; purging an object with unsaved parts fails and discards none of the unsaved parts.", "quantifier": "every object graph and every history of edits, saves and loads", "why_tests_cant": "all histories", "anchors": ["dataladmetadatamodel/mappableobject.py:MappableObject.purge", "dataladmetadatamodel/mtreenode.py:MTreeNode.purge_impl", "dataladmetadatamodel/uuidset.py:UUIDSet.purge_impl"]}
{"id": "C20", "title": "Modifications are noticed by all containers", "statement": "After any modifying call on an object, neither it nor any loaded object that contains it reports itself as saved anywhere, until it is written out again.", "quantifier": "every object graph, every position of the modified object", "why_tests_cant": "containment depth is unbounded", "anchors": ["dataladmetadatamodel/modifiableobject.py:ModifiableObject.is_saved_on", "dataladmetadatamodel/modifiableobject.py:ModifiableObject.touch"]}
{"id": "C21", "title": "Saving a container stores modifications of its parts", "statement": "If a part of a saved container is modified, and the container is then written out successfully, the stored container holds the modified part; this includes parts that were put back with the unget calls before.", "quantifier": "every history of get, modify, unget and write-out calls", "why_tests_cant": "depends on the order of saves of parts and containers", "anchors": ["dataladmetadatamodel/filetree.py:FileTree.unget_metadata", "dataladmetadatamodel/versionlist.py:VersionList.unget_versioned_element", "dataladmetadatamodel/uuidset.py:UUIDSet.unget_version_list", "dataladmetadatamodel/mappableobject.py:MappableObject.write_out"]}
{"id": "C22", "title": "Writing out twice changes nothing", "statement": "Writing out an object again without modification returns the same reference and performs no write to the repository.", "quantifier": "every object graph and every state", "why_tests_cant": "all states", "anchors": ["dataladmetadatamodel/mappableobject.py:MappableObject.write_out"]}
{"id": "C23", "title": "Only the destination is written", "statement": "Writing out, reading and copying never change any repository other than the given destination, never delete a stored object, and never write to a remote repository.", "quantifier": "every object graph, every realm string, every pattern of failures", "why_tests_cant": "all realms and failure points", "anchors": ["dataladmetadatamodel/mappableobject.py:MappableObject.write_out", "dataladmetadatamodel/mapper/reference.py:Reference.is_remote"]}
{"id": "C24", "title": "Deep copies are equal and complete", "statement": "If copying an object to a destination succeeds, the copy has the content of the original and can be read from the destination alone; the original's content and load state are unchanged.", "quantifier": "every object graph in every load state", "why_tests_cant": "unbounded graphs and load states", "anchors": ["dataladmetadatamodel/mappableobject.py:MappableObject.deepcopy", "dataladmetadatamodel/mtreenode.py:MTreeNode.deepcopy_impl", "dataladmetadatamodel/versionlist.py:VersionList.deepcopy_impl", "dataladmetadatamodel/uuidset.py:UUIDSet.deepcopy_impl", "dataladmetadatamodel/metadatarootrecord.py:MetadataRootRecord.deepcopy_impl", "dataladmetadatamodel/text.py:Text.deepcopy_impl"]}
{"id": "C25", "title": "Tree version lists can be purged and reloaded", "statement": "A tree version list that was written out (or produced by a copy) can be purged and read in again with the same content.", "quantifier": "every tree version list", "why_tests_cant": "the class recorded in the returned reference matters for every list", "anchors": ["dataladmetadatamodel/mapper/gitmapper/versionlistmapper.py:TreeVersionListGitMapper.map_out_impl", "dataladmetadatamodel/mapper/mapper.py:Mapper.map_in"]}
{"id": "C26", "title": "Root records without dataset-level metadata can be handled", "statement": "A metadata root record without dataset-level metadata can be written out, purged, copied and reloaded like any other.", "quantifier": "every root record", "why_tests_cant": "must hold for each combination of missing parts", "anchors": ["dataladmetadatamodel/metadatarootrecord.py:MetadataRootRecord.purge_impl"]}
{"id": "C27", "title": "Trees stay writable after removals", "statement": "Any tree reachable by adding and removing elements can be written out, and the stored tree has the same elements.", "quantifier": "every sequence of add and remove calls", "why_tests_cant": "depends on inner nodes that become empty", "anchors": ["dataladmetadatamodel/mapper/gitmapper/mtreenodemapper.py:MTreeNodeGitMapper.map_out_impl", "dataladmetadatamodel/mtreenode.py:MTreeNode.remove_child_at"]}
{"id": "C28", "title": "Batched writing equals immediate writing", "statement": "Writing a file tree through the blob cache produces the same reference and stores the same objects as writing each metadata object immediately, for any number of entries.", "quantifier": "every file tree, every cache size and fill level", "why_tests_cant": "the flush-at-limit behaviour depends on counts beyond test sizes", "anchors": ["dataladmetadatamodel/mapper/gitmapper/gitblobcache.py:GitBlobCache.cache_blob", "dataladmetadatamodel/mapper/gitmapper/gitblobcache.py:GitBlobCache.flush", "dataladmetadatamodel/mtreeproxy.py:MTreeProxy.write_out"]}
{"id": "C29", "title": "A failed file-tree write has no lasting effect on later writes", "statement": "If writing a file tree fails, later writes of metadata to the same repository either fail or really store the metadata they return a reference to.", "quantifier": "every failure point in a file-tree write and every later write", "why_tests_cant": "depends on the exact point of failure", "anchors": ["dataladmetadatamodel/mtreeproxy.py:MTreeProxy.write_out", "dataladmetadatamodel/mapper/gitmapper/metadatamapper.py:MetadataGitMapper.map_out_impl"]}
{"id": "C30", "title": "References do not depend on insertion order", "statement": "Two trees with the same elements at the same paths get the same reference, whatever order the elements were added in.", "quantifier": "every tree and every permutation of insertions", "why_tests_cant": "all permutations", "anchors": ["dataladmetadatamodel/mapper/gitmapper/mtreenodemapper.py:MTreeNodeGitMapper.map_out_impl", "dataladmetadatamodel/mapper/gitmapper/gitbackend/subprocess.py:git_save_tree_node"]}
{"id": "C31", "title": "Stored state is complete at every crash point", "statement": "If the process stops at any moment during a write-out, everything that can be read starting from the published top-level references of the repository is completely stored.", "quantifier": "every object graph and every prefix of the git commands issued", "why_tests_cant": "every crash point of every write", "anchors": ["dataladmetadatamodel/mapper/gitmapper/versionlistmapper.py:TreeVersionListGitMapper.map_out_impl", "dataladmetadatamodel/mapper/gitmapper/uuidsetmapper.py:UUIDSetGitMapper.map_out_impl", "dataladmetadatamodel/mtreeproxy.py:MTreeProxy.write_out"]}
{"id": "C32", "title": "A version list is a map from version and path to element", "statement": "A version list answers as a map from (version, prefix path) to (time stamp, element): setting an entry makes exactly that entry return the new values, keeps all others, and the listing of versions and paths gives each entry once.", "quantifier": "every sequence of set operations", "why_tests_cant": "all histories", "anchors": ["dataladmetadatamodel/versionlist.py:VersionList.set_versioned_element", "dataladmetadatamodel/versionlist.py:VersionList.get_versioned_element", "dataladmetadatamodel/versionlist.py:VersionList.versions_and_prefix_paths"]}
{"id": "C33", "title": "Copying a version list under a prefix loses no entry", "statement": "Copying a version list with a path prefix gives a list with one entry for each original entry, at the prefixed path, with the same version, time stamp and element content.", "quantifier": "every version list and prefix", "why_tests_cant": "needs injectivity of prefixing for all paths", "anchors": ["dataladmetadatamodel/versionlist.py:VersionList.deepcopy_impl", "dataladmetadatamodel/versionlist.py:TreeVersionList.deepcopy_impl"]}
{"id": "C34", "title": "A UUID set is a map from dataset id to version list", "statement": "Setting the version list of a dataset id in a UUID set, loaded or not, makes a later lookup return it and keeps all other ids.", "quantifier": "every UUID set in every load state, every sequence of set operations", "why_tests_cant": "load states and histories", "anchors": ["dataladmetadatamodel/uuidset.py:UUIDSet.set_version_list", "dataladmetadatamodel/uuidset.py:UUIDSet.get_version_list", "dataladmetadatamodel/uuidset.py:UUIDSet.uuids"]}
{"id": "C35", "title": "Lookup without auto-create has no effect", "statement": "Asking for a metadata root record without auto-create returns nothing if any of the required elements is missing, and never changes the top-level objects or the repository.", "quantifier": "every repository state and every combination of ids, versions and paths", "why_tests_cant": "all combinations of present and missing elements", "anchors": ["dataladmetadatamodel/common.py:get_top_nodes_and_metadata_root_record", "dataladmetadatamodel/common.py:get_metadata_root_record_from_top_nodes"]}
{"id": "C36", "title": "Auto-create makes the record findable", "statement": "After a call with auto-create, the same call returns the same record without creating anything, also with auto-create off; entries of other datasets and versions are kept.", "quantifier": "every repository state and every combination of ids, versions and paths", "why_tests_cant": "all combinations of present and missing elements", "anchors": ["dataladmetadatamodel/common.py:get_metadata_root_record_from_top_nodes"]}
{"id": "C37", "title": "The returned record belongs to the requested dataset", "statement": "A record returned for a dataset id and version carries that dataset id and version.", "quantifier": "every consistent repository state and every request", "why_tests_cant": "needs all combinations of stored and requested ids", "anchors": ["dataladmetadatamodel/common.py:get_metadata_root_record_from_top_nodes"]}
{"id": "C38", "title": "Both top-level views show the same record", "statement": "After saving both top-level objects, the record found through the tree version list and the record found through the UUID set have the same content.", "quantifier": "every sequence of sessions that add metadata and save", "why_tests_cant": "depends on sharing of objects between two containers over sessions", "anchors": ["dataladmetadatamodel/common.py:get_metadata_root_record_from_top_nodes"]}
{"id": "C39", "title": "A crash between the two top-level saves loses nothing", "statement": "If the process stops after the tree version list was saved and before the UUID set was saved, a later auto-create session keeps all saved versions.", "quantifier": "every repository state at this crash point", "why_tests_cant": "a specific crash point with arbitrary content", "anchors": ["dataladmetadatamodel/common.py:get_top_level_metadata_objects", "dataladmetadatamodel/common.py:get_top_nodes_and_metadata_root_record"]}
{"id": "C40", "title": "Adding paths to a stored tree is a merge", "statement": "Adding a set of object paths to a stored tree gives a tree that has exactly the old leaves and the new ones, with new hashes winning at equal paths; conflicting requests fail without changing the repository's references.", "quantifier": "every stored tree of any depth, every list of paths", "why_tests_cant": "unbounded trees and path lists", "anchors": ["dataladmetadatamodel/mapper/gitmapper/treeupdater.py:add_paths"]}
{"id": "C41", "title": "Flushing records every pending object reference", "statement": "After a successful flush, the object-reference tree of the repository contains every object reference it contained before and every reference recorded since the last flush; nothing recorded is lost if the flush fails.", "quantifier": "every set of recorded references, every prior tree, every failure point", "why_tests_cant": "all states and failure points", "anchors": ["dataladmetadatamodel/mapper/gitmapper/objectreference.py:flush_object_references", "dataladmetadatamodel/mapper/gitmapper/objectreference.py:add_object_reference"]}
{"id": "C42", "title": "Legacy reference stores are converted without loss", "statement": "Converting the legacy reference stores keeps every object protected at every moment: the legacy reference is only removed once its entries are in the new store, at every crash and failure point.", "quantifier": "every legacy store content and every crash point", "why_tests_cant": "all crash points", "anchors": ["dataladmetadatamodel/mapper/gitmapper/objectreference.py:add_legacy_store_entries", "dataladmetadatamodel/mapper/gitmapper/objectreference.py:remove_legacy_store_reference", "dataladmetadatamodel/mapper/gitmapper/objectreference.py:flush_object_references"]}
{"id": "C43", "title": "Saved metadata is protected from garbage collection", "statement": "After writing out a top-level object and flushing the object references of its repository, every stored object needed to read it is reachable for git from the repository's references.", "quantifier": "every object graph and every set of repositories written before the flush", "why_tests_cant": "needs all graphs and all interleavings of writes to several repositories", "anchors": ["dataladmetadatamodel/mapper/gitmapper/objectreference.py", "dataladmetadatamodel/mapper/gitmapper/metadatarootrecordmapper.py", "dataladmetadatamodel/mapper/gitmapper/metadatamapper.py", "dataladmetadatamodel/mtreeproxy.py:MTreeProxy.write_out"]}
{"id": "C44", "title": "Concurrent flushes lose no reference", "statement": "If several processes flush object references to the same repository at the same time, the resulting tree contains the references of all of them.", "quantifier": "every number of processes and every interleaving of their git commands", "why_tests_cant": "all schedules", "anchors": ["dataladmetadatamodel/mapper/gitmapper/objectreference.py:flush_object_references", "dataladmetadatamodel/mapper/gitmapper/utils.py:locked_backend"]}
{"id": "C45", "title": "The backend lock is exclusive and re-entrant", "statement": "At most one process holds the lock of a repository at a time, nested lock and unlock calls of one process release it exactly at the outermost unlock, and locks of different repositories are independent.", "quantifier": "every number of processes and every sequence of lock and unlock calls", "why_tests_cant": "all schedules", "anchors": ["dataladmetadatamodel/mapper/gitmapper/utils.py:lock_backend", "dataladmetadatamodel/mapper/gitmapper/utils.py:unlock_backend"]}
{"id": "C46", "title": "File names survive the git tree format", "statement": "An element name written to a git tree and read back is unchanged, for every file name that a file system allows.", "quantifier": "every byte sequence without NUL and slash", "why_tests_cant": "quoting rules interact over all character sequences", "anchors": ["dataladmetadatamodel/mapper/gitmapper/mtreenodemapper.py:MTreeNodeGitMapper.escape_double_quotes", "dataladmetadatamodel/mapper/gitmapper/mtreenodemapper.py:MTreeNodeGitMapper.map_in_impl", "dataladmetadatamodel/mapper/gitmapper/utils.py:split_git_lstree_line"]}
{"id": "C47", "title": "Reading a remote repository gives the remote's content", "statement": "A repository is remote exactly if its name begins like an address of git. Reading an object from a remote repository through the local cache, if it succeeds, returns what that remote repository holds under the name or hash (for a hash that the remote has lost meanwhile, what it held), named references are always taken from the remote's current state, reading changes nothing but the cache of that remote, leaves a cache that can be used again, and works while git works and the remote is complete.", "quantifier": "every sequence of changes of several remotes and reads, every outcome of the git commands", "why_tests_cant": "all histories of two repositories", "anchors": ["dataladmetadatamodel/mapper/gitmapper/localcache.py:cache_object", "dataladmetadatamodel/mapper/gitmapper/gitbackend/subprocess.py:adapt_for_remote"]}
{"id": "C48", "title": "Objects are only loaded from matching references", "statement": "Reading an object in from a reference recorded for another class fails and leaves the object unloaded; only the two legacy tree class names are accepted as aliases.", "quantifier": "every class, every reference", "why_tests_cant": "all combinations of classes and arbitrary class name strings", "anchors": ["dataladmetadatamodel/mapper/mapper.py:Mapper.map_in", "dataladmetadatamodel/mappableobject.py:MappableObject.read_in"]}
{"id": "C49", "title": "Text objects survive storage", "statement": "A text object written out and read back has the same text.", "quantifier": "every string", "why_tests_cant": "depends on line separators and trailing newlines in arbitrary text", "anchors": ["dataladmetadatamodel/mapper/gitmapper/textmapper.py", "dataladmetadatamodel/text.py:Text", "dataladmetadatamodel/mapper/gitmapper/gitbackend/subprocess.py:git_load_str"]}
{"id": "C50", "title": "Dataset identifiers survive storage", "statement": "The dataset identifier and version of a root record are unchanged after writing out and reading back.", "quantifier": "every 128-bit identifier, every version string, and absent values", "why_tests_cant": "ranges over all identifiers and absent values", "anchors": ["dataladmetadatamodel/mapper/gitmapper/metadatarootrecordmapper.py:MetadataRootRecordGitMapper"]}
{"id": "C51", "title": "A failed write can be repeated", "statement": "If write_out fails because git fails, a later write_out of the same object, with git working, stores the object's content: reading the returned reference gives what the object holds.", "quantifier": "every object graph, every schedule of git failures, every modification before the first attempt", "why_tests_cant": "every git command of every write can fail, before or after its effect", "anchors": ["dataladmetadatamodel/mappableobject.py:MappableObject.write_out", "dataladmetadatamodel/mapper/mapper.py:Mapper.map_out"]}
{"id": "C52", "title": "Lists of empty elements stay usable", "statement": "A version list that holds an empty dataset tree can be written, opened in another process, extended and written again.", "quantifier": "every version list, every history of processes", "why_tests_cant": "needs several processes and elements in states that tests do not build", "anchors": ["dataladmetadatamodel/versionlist.py:VersionList", "dataladmetadatamodel/mtreenode.py:MTreeNode", "dataladmetadatamodel/mapper/gitmapper/versionlistmapper.py"]}
{"id": "C53", "title": "Empty top-level objects can be saved", "statement": "A UUID set without datasets and a tree version list without versions can be written and read back.", "quantifier": "every class of top-level object, every repository state", "why_tests_cant": "depends on what git does with empty input", "anchors": ["dataladmetadatamodel/mapper/gitmapper/uuidsetmapper.py:UUIDSetGitMapper", "dataladmetadatamodel/mapper/gitmapper/gitbackend/subprocess.py:git_save_tree"]}
{"id": "C54", "title": "Objects of another type are rejected", "statement": "Text that is tagged with the type of another class, at any place of a serialised metadata object, reference or metadata source, is not accepted when reading.", "quantifier": "every JSON value, at every nesting position", "why_tests_cant": "arbitrary JSON values at arbitrary positions", "anchors": ["dataladmetadatamodel/metadata.py:Metadata.init_from_json", "dataladmetadatamodel/mapper/reference.py:Reference.from_json_obj", "dataladmetadatamodel/metadata.py:MetadataInstanceSet.from_json_obj"]}
{"id": "C55", "title": "Listed elements belong to the tree", "statement": "Changing an object that a path listing returned changes the element of the tree, so that a later write_out of the tree stores the change.", "quantifier": "every tree, loaded or not, every path, every change", "why_tests_cant": "depends on which nodes were loaded when the listing was made", "anchors": ["dataladmetadatamodel/mtreenode.py:MTreeNode.get_paths_recursive", "dataladmetadatamodel/filetree.py:FileTree.get_paths_recursive", "dataladmetadatamodel/mappableobject.py:MappableObject.ensure_mapped"]}
{"id": "C56", "title": "A root record returns the parts that were set", "statement": "Setting the dataset-level metadata or the file tree of a root record, loaded or not, makes a later get return it and keeps the other part, the id and the version; for a part that was never set, get returns None.", "quantifier": "every root record in every load state, every part", "why_tests_cant": "depends on the load state of the record and of its parts, and on which parts are missing", "anchors": ["dataladmetadatamodel/metadatarootrecord.py:MetadataRootRecord.set_file_tree", "dataladmetadatamodel/metadatarootrecord.py:MetadataRootRecord.get_file_tree", "dataladmetadatamodel/metadatarootrecord.py:MetadataRootRecord.set_dataset_level_metadata", "dataladmetadatamodel/metadatarootrecord.py:MetadataRootRecord.get_dataset_level_metadata"]}
{"id": "C57", "title": "Writing succeeds while git works", "statement": "While all git commands succeed, write_out of an object whose names, texts and identifiers can be stored succeeds, and the destination then holds the object's content under the returned reference.", "quantifier": "every object graph of any size, any load state, any mixture of saved and modified parts", "why_tests_cant": "object graphs, load states and histories are unbounded; failures hide in rare combinations", "anchors": ["dataladmetadatamodel/mappableobject.py:MappableObject.write_out", "dataladmetadatamodel/mapper/mapper.py:Mapper.map_out", "dataladmetadatamodel/mapper/gitmapper/gitbackend/subprocess.py"]}
{"id": "C58", "title": "Writing leaves other objects alone", "statement": "Writing out an object, whether it succeeds or fails and whatever the destination, neither unloads nor changes any object, and leaves references, repositories and saved marks of all objects that it does not contain as they are.", "quantifier": "every object graph with any sharing, every destination, every failing command", "why_tests_cant": "needs all graphs with sharing and all failures", "anchors": ["dataladmetadatamodel/mappableobject.py:MappableObject.write_out", "dataladmetadatamodel/mtreeproxy.py:MTreeProxy.write_out", "dataladmetadatamodel/modifiableobject.py"]}
{"id": "C59", "title": "Putting an element back stores it and loses nothing", "statement": "unget_versioned_element, unget_dataset_tree, unget_version_list and unget_metadata store the current content of the element in the destination and remove it from memory; nothing changes for a user: every object keeps its content, objects that are no part of the element stay as they are, and the element can be read again with the content it had. While git works, the calls succeed.", "quantifier": "every element in any load state, every history of the process, every failing command", "why_tests_cant": "combines modified, saved, shared and unloaded parts over unbounded histories", "anchors": ["dataladmetadatamodel/versionlist.py:VersionList.unget_versioned_element", "dataladmetadatamodel/versionlist.py:TreeVersionList.unget_dataset_tree", "dataladmetadatamodel/uuidset.py:UUIDSet.unget_version_list", "dataladmetadatamodel/filetree.py:FileTree.unget_metadata"]}
{"id": "C60", "title": "Subtrees of datasets are added and deleted as a whole", "statement": "After add_subtree of a dataset tree at a path, the tree contains exactly the datasets it contained before and the datasets of the subtree, with the path in front, each with its root record; listing them gives each once. After delete_subtree, exactly the datasets at the path and below are gone. A call that fails changes nothing.", "quantifier": "every dataset tree and subtree of any size and depth, in memory or stored, every path", "why_tests_cant": "the set of datasets of all trees, subtrees and paths is unbounded", "anchors": ["dataladmetadatamodel/datasettree.py:DatasetTree.add_subtree", "dataladmetadatamodel/datasettree.py:DatasetTree.delete_subtree", "dataladmetadatamodel/mtreenode.py:MTreeNode.add_child_at"]}
{"id": "C61", "title": "A metadata source copies its object to another repository", "statement": "If the repository of a LocalGitMetadataSource has the object, copy_object_to returns the reference of the source, the destination then has the same object under this reference, and write_object_to gives the same text for both. Nothing else changes in any repository, and a copy that fails leaves the destination as it was. write_object_to of an ImmediateMetadataSource gives JSON that reads back as the content.", "quantifier": "every state of the repositories, every path and reference, every outcome of every git command", "why_tests_cant": "repositories, paths, references and failures are unbounded", "anchors": ["dataladmetadatamodel/metadatasource.py:LocalGitMetadataSource.copy_object_to", "dataladmetadatamodel/metadatasource.py:LocalGitMetadataSource.write_object_to", "dataladmetadatamodel/metadatasource.py:ImmediateMetadataSource.write_object_to"]}
{"id": "C62", "title": "Metadata of one repository is taken over into another", "statement": "If an object of one repository is copied to another repository with deepcopy, the copy is added to a version list or tree version list of that repository with set_versioned_element, and the list is written out, then the other repository holds under the returned reference, for this version and path and with the given time stamp, the content of the original object. All other entries of the list are stored as they were. No other object changes its content, in any of the repositories, except those that the list is a part of.", "quantifier": "every process that works with any number of repositories, every load state of the object and of the list, every version, path and time stamp, every outcome of every git command before", "why_tests_cant": "the number of repositories, the object graphs, the steps of the process before and the failures are unbounded", "anchors": ["dataladmetadatamodel/mappableobject.py:MappableObject.deepcopy", "dataladmetadatamodel/versionlist.py:VersionList.set_versioned_element", "dataladmetadatamodel/mappableobject.py:MappableObject.write_out"]}
{"id": "C63", "title": "Metadata that one session saves is found by the next", "statement": "After the tree version list and the UUID set of a repository were written out, in one process or in several and in any order, and as long as nobody writes out another one, a process that calls get_top_nodes_and_metadata_root_record for a dataset, version and path that the saved objects had gets the record with the content it had when it was saved, whatever the value of auto_create. With get_version_list and get_versioned_element it gets every element of every version list of the saved UUID set, with its time stamp and content.", "quantifier": "every repository, every state of the processes that saved, every dataset id, version, prefix path and path, every value of auto_create, every reading process, whatever other processes store in between", "why_tests_cant": "the object graphs, the steps of the saving and reading processes and what others store in between are unbounded", "anchors": ["dataladmetadatamodel/common.py:get_top_nodes_and_metadata_root_record", "dataladmetadatamodel/common.py:get_top_level_metadata_objects", "dataladmetadatamodel/mappableobject.py:MappableObject.write_out", "dataladmetadatamodel/uuidset.py:UUIDSet.get_version_list", "dataladmetadatamodel/versionlist.py:VersionList.get_versioned_element"]}
{"id": "C64", "title": "What a session adds to a record is found by every later session", "statement": "A process opens a repository that has both top-level objects or none, asks for root records with or without auto_create, adds extractor runs to their dataset-level and file-level metadata, puts new metadata into file trees, reads whatever it likes, and then writes out the tree version list and after it the UUID set, and ends. If both writes succeed, a process that later calls get_top_nodes_and_metadata_root_record for one of the datasets, versions and paths, while git works, gets a record with all the metadata that the record had when it was saved. With get_version_list and get_versioned_element it gets every element that the UUID set had. The repository can be opened by the next such session.", "quantifier": "every repository content that earlier sessions can leave, every sequence of calls of any length, with failing ones among them, every dataset id, version and path with names that git can hold and that have no newline, everything that others store meanwhile, and every name that they set except those of the two top-level objects, every value of auto_create and force_write", "why_tests_cant": "the sequences of calls, the sizes of the object graphs and the number of sessions are unbounded", "anchors": ["dataladmetadatamodel/common.py:get_top_nodes_and_metadata_root_record", "dataladmetadatamodel/common.py:get_top_level_metadata_objects", "dataladmetadatamodel/metadata.py:Metadata.add_extractor_run", "dataladmetadatamodel/mtreenode.py:MTreeNode.add_child_at", "dataladmetadatamodel/mappableobject.py:MappableObject.write_out"]}
{"id": "C65", "title": "Equal metadata objects hold the same runs", "statement": "When comparing two loaded metadata objects that were built by adding extractor runs yields a truth value, it is True exactly if for every extractor and every configuration both have the same most recent run or both have none; runs are the same if time stamp, author, mail address, configuration and content are. If the comparison with exchanged sides also yields a value, it is the same. For loaded objects from any source, equality means that both have the same extractors and give the same answers by configuration index.", "quantifier": "all pairs of sequences of added runs, all extractors and configurations", "why_tests_cant": "the numbers of runs, extractors and configurations and the JSON values in them are unbounded", "anchors": ["dataladmetadatamodel/metadata.py:Metadata.__eq__", "dataladmetadatamodel/metadata.py:MetadataInstanceSet.__eq__", "dataladmetadatamodel/metadata.py:MetadataInstance.__eq__", "dataladmetadatamodel/metadata.py:ExtractorConfiguration.__eq__"]}
{"id": "C66", "title": "Metadata is kept through any number of later sessions", "statement": "A process opens a repository, asks for the root record of a dataset, works, writes out the tree version list and after it the UUID set, and ends. Any number of further sessions follow, each of which opens the repository and finds the top-level objects, asks for records, reads, adds runs and file metadata, and writes both objects out. A process that then calls get_top_nodes_and_metadata_root_record for the dataset, while git works, gets a record with everything that the record had when the first session saved it. Each extractor run that was found for an extractor and a configuration is still found, unless a later session added a run for the same extractor and an equal configuration, which is then found in its place.", "quantifier": "every number of sessions, every sequence of calls in each of them, everything that others store meanwhile, and every name that they set (as flush_object_references does) except those of the two top-level objects, every dataset id, version and path with names that git can hold and that have no newline, every extractor and configuration", "why_tests_cant": "the number of sessions, the sequences of calls and the sizes of the object graphs are unbounded", "anchors": ["dataladmetadatamodel/common.py:get_top_nodes_and_metadata_root_record", "dataladmetadatamodel/common.py:get_top_level_metadata_objects", "dataladmetadatamodel/metadata.py:Metadata.add_extractor_run", "dataladmetadatamodel/metadata.py:MetadataInstanceSet.add_metadata_instance", "dataladmetadatamodel/mappableobject.py:MappableObject.write_out"]}
{"id": "C67", "title": "Sessions that overlap keep each other's metadata", "statement": "Two processes open a repository, each asks for root records, works, and writes out the tree version list and after it the UUID set, the second after the first has done so. If all calls succeed, a process that later calls get_top_nodes_and_metadata_root_record finds what the first process saved and what the second saved.", "quantifier": "every number of overlapping processes, every sequence of calls of any length in each, everything that others store in the meantime, every dataset id, version and path with names that git can hold and that have no newline", "why_tests_cant": "the interleavings, the sequences of calls and the sizes of the object graphs are unbounded", "anchors": ["dataladmetadatamodel/common.py:get_top_nodes_and_metadata_root_record", "dataladmetadatamodel/mappableobject.py:MappableObject.write_out", "dataladmetadatamodel/versionlist.py:VersionList.modifiable_sub_objects_impl", "dataladmetadatamodel/mapper/gitmapper/versionlistmapper.py:TreeVersionListGitMapper.map_out_impl", "dataladmetadatamodel/mapper/gitmapper/gitbackend/subprocess.py:git_update_ref"]}
{"id": "C68", "title": "Sessions under the backend lock keep each other's metadata", "statement": "Any number of processes share a repository. Each calls lock_backend before it opens the repository and unlock_backend (or ends) after its session; in a session it asks for root records, works, and writes out the tree version list and after it the UUID set. Writes may fail at any command, and a process may stop after any command. At every later moment, also while another session is saving or has stopped half-way, a process that calls get_top_nodes_and_metadata_root_record for a record that a session got and wrote out in full, while git works, gets a record with everything that the record had when it was saved; extractor runs are found as in C66.", "quantifier": "every number of processes, every interleaving of their steps, every sequence of calls in each session, every point at which a write fails or a process stops, everything that others store meanwhile and every name that they set except those of the two top-level objects, every dataset id, version and path with names that git can hold and that have no newline; repositories that have both top-level objects or no UUID set; sessions are told that there are no top-level objects only if no command failed", "why_tests_cant": "the number of processes, the interleavings, the points of failure and the sequences of calls are unbounded", "anchors": ["dataladmetadatamodel/mapper/gitmapper/utils.py:lock_backend", "dataladmetadatamodel/mapper/gitmapper/utils.py:unlock_backend", "dataladmetadatamodel/common.py:get_top_nodes_and_metadata_root_record", "dataladmetadatamodel/mappableobject.py:MappableObject.write_out", "dataladmetadatamodel/mapper/gitmapper/gitbackend/subprocess.py:git_update_ref"]}
{"id": "C69", "title": "Answers do not depend on what is loaded", "statement": "The length of a version list, whether two metadata objects are equal, and the JSON text of a metadata object are the same whether the objects are loaded, were purged after saving, or are only known by a reference.", "quantifier": "all objects, all contents, all sequences of reading and purging", "why_tests_cant": "the contents and the orders of reading and purging are unbounded", "anchors": ["dataladmetadatamodel/versionlist.py:VersionList.__len__", "dataladmetadatamodel/metadata.py:Metadata.__eq__", "dataladmetadatamodel/metadata.py:Metadata.to_json"]}
{"id": "C70", "title": "A path is in a file tree exactly if it has metadata", "statement": "`path in file_tree` is True exactly if metadata was added at the path; then get_metadata returns the metadata, and None otherwise. `path in node` for a tree node says whether there is something at the path below the node. Asking changes nothing.", "quantifier": "all trees, loaded or stored in any part, all paths", "why_tests_cant": "the shapes of trees, the paths and the parts that are loaded are unbounded", "anchors": ["dataladmetadatamodel/mtreeproxy.py:MTreeProxy.__contains__", "dataladmetadatamodel/mtreenode.py:MTreeNode.__contains__", "dataladmetadatamodel/mtreenode.py:MTreeNode.contains_child", "dataladmetadatamodel/filetree.py:FileTree.get_metadata"]}
{"id": "C71", "title": "While git works, sessions succeed", "statement": "A process opens a repository that holds no metadata yet, or one that was saved by such processes, and makes any calls in any order: requests for root records, reading, adding runs, putting metadata into file trees and root records into dataset trees. Any git command may fail meanwhile, as long as no request fails for a version of a root dataset that is not listed yet (C74). Whenever git works again, every request for any dataset id, version, prefix path and dataset path is answered without an exception, with a record unless auto_create is False; once the UUID set lists a dataset, both write_out calls succeed at every point of the session, for every recursion limit that is large enough; and the next process can open the repository and rely on the same. (Dataset paths do not contain the reserved name of root records, requests for sub-datasets name the root dataset and its version.)", "quantifier": "all repositories saved by such processes, all sessions of any length, all requests, all recursion limits large enough", "why_tests_cant": "the number and order of calls and sessions, the ids, versions and paths, and the contents are unbounded", "anchors": ["dataladmetadatamodel/common.py:get_top_level_metadata_objects", "dataladmetadatamodel/common.py:get_metadata_root_record", "dataladmetadatamodel/mappableobject.py:MappableObject.write_out", "dataladmetadatamodel/datasettree.py:DatasetTree.add_dataset"]}
{"id": "C72", "title": "Sessions that were stopped do not get in the way of later ones", "statement": "Starting with a repository that holds no metadata, any number of sessions follow each other. In each, a process opens the repository, makes any calls in any order, and writes out the tree version list and after it the UUID set; any git command may fail, as long as no request fails for a version of a root dataset that is not listed yet (C74), and the process may stop after any command. Others may store objects in the repository. After every such history, while git works, a new process can open the repository, every request it makes at any point of its session is answered without an exception, with a record unless auto_create is False, and, once its UUID set lists a dataset, both write_out calls succeed.", "quantifier": "all histories with any number of sessions, all calls in each, all commands at which a write fails or a process stops, all requests of the new process, all recursion limits large enough", "why_tests_cant": "the number of sessions and calls, the points at which writes fail or processes stop, and the contents are unbounded", "anchors": ["dataladmetadatamodel/common.py:get_top_level_metadata_objects", "dataladmetadatamodel/common.py:get_metadata_root_record", "dataladmetadatamodel/mappableobject.py:MappableObject.write_out"]}
{"id": "C73", "title": "A process that holds the backend lock can always work", "statement": "Any number of processes share a repository that began without metadata. Each locks it with lock_backend before it opens it and keeps the lock until its session is over; a session makes any calls, while any git command may fail as long as no request fails for a version of a root dataset that is not listed yet (C74), writes out the tree version list and after it the UUID set, and may be given up or killed at any time; while it writes, any git command may fail, and the process may be stopped after any command. Others may store objects in the repository and set other names at any time, also between the two writes. Whatever the order of all steps: while git works, a process that holds the lock can open the repository, every request it makes at any point of its session is answered without an exception, with a record unless auto_create is False, its tree version list can be written out, and after that its UUID set, if it lists a dataset.", "quantifier": "all numbers of processes, all interleavings of their steps, all calls, all commands at which a write fails or a process stops, all changes by others, all recursion limits large enough", "why_tests_cant": "the number of processes and steps, their order, the points at which writes fail or processes stop, and the contents are unbounded", "anchors": ["dataladmetadatamodel/mapper/gitmapper/utils.py:lock_backend", "dataladmetadatamodel/mapper/gitmapper/utils.py:unlock_backend", "dataladmetadatamodel/common.py:get_top_level_metadata_objects", "dataladmetadatamodel/common.py:get_metadata_root_record", "dataladmetadatamodel/mappableobject.py:MappableObject.write_out"]}
{"id": "C74", "title": "A call that fails does no lasting harm", "statement": "Whatever git commands fail while a process opens a repository and makes any calls, and whatever exceptions the calls raise: as soon as git works again, every request for a root record is answered, both top-level objects can be saved, and all later sessions can open the repository, are answered and can save. The code violates this for requests with auto_create that fail after they have listed a new version of a root dataset: the session saves without an error, and no later session that adds a version can save.", "quantifier": "all histories of the repository, all calls of the session, all schedules of failing git commands, all requests, all recursion limits large enough", "why_tests_cant": "the failing command can be any command of any call in a session of any length, over any content", "anchors": ["dataladmetadatamodel/common.py:get_metadata_root_record_from_top_nodes", "dataladmetadatamodel/mappableobject.py:MappableObject.write_out", "dataladmetadatamodel/mappableobject.py:MappableObject.read_in"]}
{"id": "C75", "title": "A repository with metadata is not taken for an empty one", "statement": "get_top_level_metadata_objects tells that a repository has no metadata only if none was published in it. The code violates this: it takes every failure of git for the absence of metadata, so that get_top_nodes_and_metadata_root_record answers that there is no record, or, with auto_create, starts with empty objects, which replace all stored metadata when they are saved.", "quantifier": "all contents of the repository, all failures of the command, all calls of the session", "why_tests_cant": "the content of the repository, the calls of the session and the datasets that are lost are unbounded", "anchors": ["dataladmetadatamodel/common.py:get_top_level_metadata_objects", "dataladmetadatamodel/common.py:get_top_nodes_and_metadata_root_record"]}
{"id": "C76", "title": "Metadata added in a session is stored and found", "statement": "While git works, a session with a root record can add a run to its dataset-level metadata, and metadata with a run for a file to its file tree, unless something is at the path of the file or something other than a directory above it. To metadata that a file already has it can add a further run. Exactly this is then found in the record, with all that was found before. Both top-level objects can be saved, and every later process that asks for the record gets one that shows the same under every key. For a record that is not there yet, get_metadata_root_record_from_top_nodes with auto_create makes one, for which all of this holds for every path.", "quantifier": "all histories of the repository, including sessions that were stopped anywhere and git commands that failed; all calls made before; all datasets, versions, paths, runs; all recursion limits large enough; all later processes", "why_tests_cant": "the whole chain from opening a repository to finding the metadata in another process, over unbounded histories and contents", "anchors": ["dataladmetadatamodel/common.py:get_metadata_root_record_from_top_nodes", "dataladmetadatamodel/common.py:get_top_nodes_and_metadata_root_record", "dataladmetadatamodel/metadatarootrecord.py:MetadataRootRecord.get_dataset_level_metadata", "dataladmetadatamodel/metadatarootrecord.py:MetadataRootRecord.set_file_tree", "dataladmetadatamodel/filetree.py:FileTree.add_metadata", "dataladmetadatamodel/metadata.py:Metadata.add_extractor_run", "dataladmetadatamodel/mappableobject.py:MappableObject.write_out"]}
{"id": "C77", "title": "New records are empty", "statement": "A root record that get_metadata_root_record_from_top_nodes creates has dataset-level metadata without runs and no metadata for any file, whatever metadata other datasets and versions have.", "quantifier": "all top-level objects, loaded to any extent, all datasets, versions and paths, all schedules of failing git commands", "why_tests_cant": "the content of the other records is unbounded, and whether objects are shared between records depends on the calls made before", "anchors": ["dataladmetadatamodel/common.py:get_metadata_root_record_from_top_nodes"]}
{"id": "C78", "title": "A process can open the repository again", "statement": "A process that has worked with a repository, and has saved or not, can call get_top_level_metadata_objects again while git works, after any changes by sessions of other processes. What it gets shows what is stored at that time, whatever objects the process still has, and it finds the root records that it saved itself with the same content. The objects that the process had are not changed by opening, by the calls of the new session, or by saving it.", "quantifier": "all histories of the repository, all objects of the process and all calls it made before, all failing git commands in earlier sessions, all contents", "why_tests_cant": "whether old objects leak into a new session depends on sharing between unboundedly many objects over unbounded histories", "anchors": ["dataladmetadatamodel/common.py:get_top_level_metadata_objects", "dataladmetadatamodel/common.py:get_top_nodes_and_metadata_root_record", "dataladmetadatamodel/mappableobject.py:MappableObject.read_in", "dataladmetadatamodel/mappableobject.py:MappableObject.write_out"]}
{"id": "C79", "title": "What sessions saved survives garbage collection", "statement": "Processes use a repository one after the other: each opens it with get_top_level_metadata_objects or makes new top-level objects, asks for root records, reads, adds metadata, saves both top-level objects with write_out and calls flush_object_references. After any number of such sessions git's garbage collection removes nothing that is needed to read what was saved: all records and all metadata are read as the last session had them in memory.", "quantifier": "all numbers of sessions and all calls in them, all failing git commands before saving, all contents and depths, all objects that others store in between, all choices of unreachable objects that garbage collection removes", "why_tests_cant": "reachability depends on the whole history of saves and flushes and on which objects were loaded, changed or left alone in each session; tests do not run garbage collection, and cannot cover all histories", "anchors": ["dataladmetadatamodel/mapper/gitmapper/objectreference.py:flush_object_references", "dataladmetadatamodel/mapper/gitmapper/objectreference.py:GitReference", "dataladmetadatamodel/mapper/gitmapper/versionlistmapper.py:VersionListGitMapper", "dataladmetadatamodel/mapper/gitmapper/uuidsetmapper.py:UUIDSetGitMapper", "dataladmetadatamodel/common.py:get_top_level_metadata_objects", "dataladmetadatamodel/mappableobject.py:MappableObject.write_out"]}
