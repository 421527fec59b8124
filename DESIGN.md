# Formal model of datalad/metadata-model: design

This file says what is modelled, how each property in `properties.jsonl` is
proved, what is trusted, and where the code does not have the property a user
would expect.

All citations are to `/repo/dataladmetadatamodel` (shortened to the file name)
at the pinned commit, which has format version "2.0". The code was read, not
run.

## 1. Shape of the model

Strings are lists of characters (`Str`). Python dictionaries are association
lists in insertion order. Python exceptions are values: a stateful function has
type `M a = World -> Except PyErr a x World`, so the state reached before an
exception is kept, as in Python.

| module | what is in it |
|---|---|
| `Basic`, `Monad` | strings, dictionaries, exceptions; code as functions on a state that survives an exception |
| `Path` | `metadatapath.py`, on top of `PurePosixPath` parsing |
| `Json`, `JsonText` | JSON values, Python equality, `json.dumps`, `json.loads`, `str.splitlines` as used by `git_load_str` |
| `Uuid`, `Reference`, `Metadata`, `Source` | `str(UUID)`, `UUID(str)`; `mapper/reference.py`, `check_serialized_version`; `metadata.py`; serialisation in `metadatasource.py` |
| `Names` | text formats of `git mktree`, `git ls-tree`, `git cat-file -p` and what the code reads from them |
| `Git` | repositories as a log of effects, all git commands of `gitbackend/subprocess.py`, failures, crash points |
| `Heap` | the Python objects of a process |
| `Mapper` | `mappableobject.py`, `modifiableobject.py`, `mtreeproxy.py`, `gitblobcache.py`, all mappers in `mapper/gitmapper`, the wrapper of `FileTree.write_out` |
| `Classes` | the methods of `mtreenode.py`, `mtreeproxy.py`, `filetree.py`, `datasettree.py`, `metadatarootrecord.py`, `versionlist.py`, `uuidset.py`, `text.py`, and of `Metadata` objects |
| `Common` | `common.py` |
| `TreeUpdater`, `ObjRef`, `Lock` | `treeupdater.py`; `objectreference.py`; `mapper/gitmapper/utils.py` |
| `Concurrent`, `Interleave`, `System` | `flush_object_references` as a program of single git commands, run by several processes |
| `Content` | the specification: what a user finds by navigating (`look`), equality of content (`SameContent`) |
| `Store`, `Quiet`, `AnyOutcome`, `Clean`, `WriteOk`, `WriteFail`, `WriteFrame`, `WriteTotal`, `Blocked`, `Crash` | proofs about writing: what is stored, what holds for every outcome, what is not changed, when it succeeds, what a failure leaves behind, what is stored when the process stops |
| `Batch`, `Canon`, `Neat`, `Check` | proofs that the blob cache does not change what is written, that the content of a stored tree determines its reference, and that writing stores objects in one form only; checks for examples |
| `LocalCache` | `localcache.py`, `adapt_for_remote`, `git fetch`; histories of remote repositories and their caches |
| `Protect`, `Lifetime`, `Tended` | what git reaches from the names of a repository; the invariant over processes that write and flush one after the other; the calls of sessions as such steps |
| `Read`, `Frame`, `Session`, `Purge` | proofs about reading, purging and processes (`Session`: states reachable by creating, loading, reading, changing, writing and purging objects without sharing) |
| `Within`, `History` | what a write can reach; `History`: all states of a process with one repository, after any steps, including failed writes with any sharing of objects and git commands of others, and the invariant `Intact` that they keep |
| `Local`, `Repos` | what code for one repository does does not depend on the objects of others; `Repos`: all states of a process that works with any number of repositories and copies objects between them, and why the share of each repository is a `History` |
| `Walk`, `TreeOps`, `TreeAdd`, `TreeRemove`, `Visit`, `Listing`, `Edit`, `Parts` | proofs about the methods of the classes |
| `Copy`, `CopyLoop`, `CopyDone` | proofs about `deepcopy` |
| `CommonOps`, `CommonRun`, `CommonWhole`, `Desk`, `DeskSteps`, `DeskSave`, `Work` | proofs about `common.py` and about processes that use it |
| `TwinOps`, `Meanwhile`, `Halfway`, `Crew` | proofs about sessions: independence of objects that are not used, changes by others, writes that stop anywhere, processes that hold the lock |
| `Kempt`, `Answers`, `Hashes`, `Lively` | proofs that sessions are answered and can save while git works |
| `Asking`, `SourceOps`, `FlushOps` | questions answered from memory; reading and copying the object of a metadata source; what a flush of object references changes |
| `Example`, `Built` | the configuration, objects and repository used in the examples |
| `Props/*` | the property theorems with their examples, one file per group |

### Objects and content

The heap maps object ids to Python objects. Each has `mapped`, `realm`,
`reference`, `saved_on` and a class-specific body whose children are object
ids, so sharing and aliasing are visible. The *content* of an object is what a
user sees by navigating: a function from key paths (file names, version and
prefix path, dataset id, ...) to the data found there. Navigation goes through
memory for loaded objects and through the repository for objects that are not
loaded. Content is defined by recursion on the key path, independently of the
functions that write and read, and is the specification for the persistence
properties.

### Git

A repository is the list of git commands that took effect, newest first. An
object is found by its hash. A crash point is any suffix of that list. Every
git command consults a schedule of faults: it may succeed, fail before its
effect, or fail after its effect. Theorems quantify over all schedules.

SHA-1 is an arbitrary function from objects to 40-character strings. Where a
theorem needs it, the hypothesis is that *no two different objects stored in
the history at hand have the same hash*. Global injectivity is never assumed
(it would be contradictory for strings of length 40).

Recursion of Python methods over object graphs takes a fuel argument that plays
the role of Python's recursion limit; running out raises `RecursionError`.
Theorems hold for every fuel.

## 2. Trusted base

* Lean's kernel and the three standard axioms `propext`, `Classical.choice`,
  `Quot.sound`. No other axioms. No `sorry`, `native_decide` or `bv_decide`.
* That the model reads the Python code correctly. Each definition cites its
  source lines and names its simplifications.
* The behaviour of git, of `pathlib` (Python 3.7 to 3.11, which the project's
  CI uses), of `json`, `uuid` and of the file system, as described in the
  comments of the modules that model them.

Not modelled: logging; `tools/`; `_version.py`; what the shell does with
special characters other than blanks in the unquoted commands of metadata
sources (the commands fail in the model); abbreviated hashes; the text of error
messages; weak timing (`time.time()` is an arbitrary string); threads inside
one process; floats other than finite ones; lone surrogates in strings; the
limits of Python on the depth of JSON values and the digits of integers; blobs
and names that are not UTF-8; the check of entry types by `git mktree`. The
mappers in `Mapper` read a remote repository directly; `LocalCache` models the
local caches, and `C47_objects` shows that a read through them gives the same.
There, the server gives out every object by its hash, and one process uses the
caches.

Axioms: every theorem named in `MANIFEST.json` depends on no axioms other than
`propext`, `Classical.choice` and `Quot.sound` (checked with `#print axioms`
for the whole development; most need only `propext` and `Quot.sound`).

## 3. Plan per property

* **C01 Metadata paths are canonical and relative.** `Path.parse` mirrors `__new__`; idempotence and canonical form by induction on the string.
* **C02 Joining metadata paths is concatenation.** `Path.join`; algebra of lists, plus the fact that joining keeps components canonical.
* **C03 References survive serialisation.** `Reference` to JSON value to text and back, using the JSON text round trip of C07.
* **C04 Metadata survives serialisation.** JSON encoders and decoders of `metadata.py`; round trip by induction on the lists; combined with C07.
* **C05 Objects of another format version are rejected.** Decoders return an error on a version mismatch; proved per decoder, lifted through nesting; for metadata sources, whose decoder turns a missing key into `None`, no source is returned.
* **C06 Metadata sources survive serialisation.** `Source` encoders and decoders; `strip` is idempotent.
* **C07 Serialised JSON survives the git text channel.** `dumps`, a fuelled `loads`, `splitlines`; round trip by mutual induction on JSON; `dumps` output has no line separator.
* **C08 Metadata is a last-write-wins map.** Refinement of histories of runs to a map by induction on the history; configuration equality is Python dictionary equality, proved to be an equivalence. For metadata objects, an invariant over calls and steps that keep the content.
* **C09 Configuration indices are stable.** Invariant of instance sets by induction on the history.
* **C10 Metadata objects can be compared.** False in the code (`sorted` on objects without an order). Negation for every object; `C10_raises` and `C10_same` say exactly when, by induction over the extractors; `_partial` for at most one configuration per extractor.
* **C11 Added elements are found, nothing else changes.** `add_child_at` on the heap against content; induction on the path.
* **C12 A failing add leaves the tree alone.** Failure conditions and unchanged content; induction on the path.
* **C13 Removal removes exactly one subtree.** `remove_child_at` against content.
* **C14 Path listing is complete and duplicate free.** `get_paths_recursive` against content; induction on fuel.
* **C15 Dataset trees list exactly the added datasets.** Corollary of C11 and C14 for paths that avoid the reserved name; negation with a witness otherwise. For any dataset tree, from C14: the listing shows the paths below which there is a root record.
* **C16 Extractor runs can be added for new files.** False in the code (the `except AttributeError` branch never runs). Negation for every absent path; `_partial` for paths with metadata.
* **C17 What is written out is what is read back.** Main theorem: after `write_out`, the content stored under the returned reference is the content of the object. Induction on fuel, per-class encode and decode lemmas.
* **C18 Loading is transparent.** `read_in`, `ensure_mapped`, `purge` leave content unchanged, under the invariant that objects marked saved are stored as they are in memory.
* **C19 Purging never discards unsaved content.** Same invariant; plus the failure case.
* **C20 Modifications are noticed by all containers.** `is_saved_on` is false for every container of a touched object; induction on the containment path.
* **C21 Saving a container stores modifications of its parts.** False in the code after `unget_*` (the container still looks saved). Negation with a witness and for every container and modified part (`C21_lost`); `_partial`: when what passes for saved below the container is stored as it is.
* **C22 Writing out twice changes nothing.** A second `write_out` takes the `already stored` branch; follows from monotonicity of saved marks.
* **C23 Only the destination is written.** Every git command issued names the destination; induction on fuel.
* **C24 Deep copies are equal and complete.** `deepcopy` per class; false for `Text` (content is dropped), `_partial` for the others.
* **C25 Tree version lists can be purged and reloaded.** False in the code (reference carries class `VersionList`). Negation for every tree version list.
* **C26 Root records without dataset-level metadata can be handled.** False in the code (`None.purge()`). Negation for every such record.
* **C27 Trees stay writable after removals.** False in the code (an empty inner node makes `git mktree` fail). Negation, for every removal that leaves an empty inner node; `_partial` when no inner node is empty.
* **C28 Batched writing equals immediate writing.** Cached and immediate writing are compared: same reference, same set of stored objects after flush; induction on the list of blobs for every limit. The relation `Batched` (module `Batch`) holds between a state without cache and a state with cache whose waiting blobs count as stored; every step of writing keeps it.
* **C29 A failed file-tree write has no lasting effect on later writes.** False in the code (the cache stays registered). Negation with a witness.
* **C30 References do not depend on insertion order.** `git mktree` sorts; sorted permutations are equal. In repositories that hold trees, metadata and root records only as this code writes them (`Tidy`; writing keeps this, `C30_tidy_partial`), the content determines the location (`same_loc`, induction on the depth). False for root records with an empty file tree (`C30_false`).
* **C31 Stored state is complete at every crash point.** Invariant over the command log: at each suffix, all that can be read from the published names is complete, and shows the old or the whole new content (`Crash`: parts never set names, and the name is set when all is stored). False for a process that goes on after a failed file-tree write: its metadata stays in the cache (`C31_false`).
* **C32 A version list is a map from version and path to element.** Refinement of the nested dictionaries to a map.
* **C33 Copying a version list under a prefix loses no entry.** Injectivity of joining with a prefix, and C32.
* **C34 A UUID set is a map from dataset id to version list.** Map refinement for loaded sets; false for sets that are not loaded, negation.
* **C35 Lookup without auto-create has no effect.** Decision logic of `common.py`; the part about the top-level objects is false, negation; `_partial` for the repository and the returned value.
* **C36 Auto-create makes the record findable.** Decision logic of `common.py` over abstract top-level maps.
* **C37 The returned record belongs to the requested dataset.** False in the code (no check). Negation with a witness; `_partial` for records just created.
* **C38 Both top-level views show the same record.** False across sessions. Negation; `_partial` for the session that creates the record.
* **C39 A crash between the two top-level saves loses nothing.** False in the code. Negation with a witness.
* **C40 Adding paths to a stored tree is a merge.** `add_paths` against a path map; induction on path length.
* **C41 Flushing records every pending object reference.** `flush_object_references` using C40; failure case by the state-keeping monad.
* **C42 Legacy reference stores are converted without loss.** Invariant over the command log.
* **C43 Saved metadata is protected from garbage collection.** Reachability over tree entries; invariant over all sequences of processes (`Lifetime`): everything below a published list is an entry of a reached tree, recorded, or pending. True for tree version lists with dataset trees and one repository, with the consequence that garbage collection changes nothing that is read; false for several repositories and for root records in version lists (negations).
* **C44 Concurrent flushes lose no reference.** Interleaving semantics of processes; invariant: the reference tree contains all finished flushes.
* **C45 The backend lock is exclusive and re-entrant.** Lock state machine; invariant over all schedules. Independence of the locks of different repositories is stated with the `.git` directories themselves.
* **C46 File names survive the git tree format.** Byte-level model of quoting; true without newline in the name; false with newline, negation.
* **C47 Reading a remote repository gives the remote's content.** Histories in which remotes change in any way and are read, with failures; invariant: a cache holds only what its own remote has held, and only names that are fetched anew for each read.
* **C48 Objects are only loaded from matching references.** Decision logic of `map_in`.
* **C49 Text objects survive storage.** For a write of a text object in any state, with any failures before it: the returned reference is read as the same text exactly if newlines are the only line separators and the text does not end with one (`C49_text`, from the characterisation of the text channel). False for all other texts, with a witness.
* **C50 Dataset identifiers survive storage.** UUID text round trip; for a write of a record in any state: identifier and version are read back (`C50_record_partial`). Records that others wrote: the values are those of the JSON text (`C50_foreign`). False for every record with an absent value (`C50_absent_false`): an absent version comes back as `"None"`, a record without identifier cannot be read.
* **C51 A failed write can be repeated.** False in the code when a part of an object that passes for saved was changed (parts that were written keep their saved marks, the container keeps its own), and for failures inside a file tree (the blob cache stays). Negations: a witness, and for file trees every failing write. `_partial` otherwise: after any number of failed attempts, with any schedule of git failures and without `force_write`, all content in memory is unchanged, a write that succeeds stores the original content, and once git works the write succeeds. Proved by a second induction over the writing code, for all outcomes (`WriteFail`).
* **C52 Lists of empty elements stay usable.** False in the code for elements that were not looked into (`C52_fails` for all such lists); `_partial` for the others, from C57.
* **C53 Empty top-level objects can be saved.** False for UUID sets (for all of them); `_partial` for tree version lists.
* **C54 Objects of another type are rejected.** Decision logic of all decoders (references, metadata sources, configurations, instances, instance sets, metadata objects), lifted through nesting.
* **C55 Listed elements belong to the tree.** False for trees that are not loaded, negation; `_partial` for loaded ones.
* **C56 A root record returns the parts that were set.** Map refinement as for C32; the part about `None` is false, negation.
* **C57 Writing succeeds while git works.** Total correctness of `write_out`: induction on fuel over the same invariant as C17, with the additional fact that no node in a tree is empty.
* **C58 Writing leaves other objects alone.** Frame property of `write_out` by induction on fuel, for every outcome.
* **C59 Putting an element back stores it and loses nothing.** `write_out` followed by `purge`, from the theorems about both over all histories; purging touches only parts (induction on fuel). False for elements of lists that are not loaded, for new version lists of UUID sets, and for root records without dataset-level metadata (all of them).
* **C60 Subtrees of datasets are added and deleted as a whole.** Membership is stated as a root record filed at the path; from C11 and C13 by comparing paths, the listings from C15.
* **C61 A metadata source copies its object to another repository.** `SourceOps` models the two shell commands. Success is characterised from the log of git changes; the failures (a name as reference, a missing object, a blank in a path) are theorems about every state. Findings: a failing copy leaves an empty blob in the destination, since the shell ignores the result of the first command of the pipe, and paths are not quoted, so that a blank in a path makes a source unreadable and a destination unusable in every state (`C61_blank`).
* **C62 Metadata of one repository is taken over into another.** Combination of C24, C32, C17 and C23 in the states of `Repos`. Each step is compared with the same step in a process that has only the objects of one repository (`Twin`), which is a `History`.
* **C63 Metadata that one session saves is found by the next.** Combination of C17 (published), C31 (what others store changes nothing under a name), C35 and C32/C34. A request that finds its elements without auto-create gives the same with every `auto_create` (`rootRecord_found`). The savings can happen in different processes (`Saves`); `C63_sessions_partial` is the case of one `Session` that saves both.
* **C64 What a session adds to a record is found by every later session.** No hypotheses on the state of the process: the calls are given (`Opens`, `Busy`), others may change the repository between them (`Meanwhile`: they store objects and set any names, those of the two top-level objects only while the process has unsaved changes in them, `Verif/Meanwhile.lean`), and an invariant of the process (`Desk`: everything that passes for saved is stored as it is; the objects form trees, except that root records below the tree version list can also be elements of changed version lists; everything can be stored) is kept by each of them. When a read at the start fails, the process keeps objects that it does not use; `Bench` relates it to a process without them, in which each call has the same result (`Twin`). `C64_stocked` gives the hypothesis of the next session, so that sessions can follow each other without end. A session begins in any process that is `Idle`, new or not, and so does the later one (C78). Not covered by the statement: a process that goes on with the same top-level objects after saving (it may publish a stale version list, C21; with new ones see C78) or saves the UUID set first, replacing metadata in a record (parts that a record does not have can be set, `Busy.part`), removing and purging.
* **C65 Equal metadata objects hold the same runs.** The answers of the objects are those of the histories (C08); the comparison goes extractor by extractor. The statement is about comparisons that give an answer: a comparison raises when an extractor that it reaches has two configurations (`C10_false`).
* **C66 Metadata is kept through any number of later sessions.** Induction over the sessions (`Sessions`): each step of a session only adds to what is found (`Richer`, by the cases of `Busy`), what a process finds when it opens the repository is what is stored (`opened_content`), and what it saves is what it has (`Bench.saved`, C64). `Later` says how the data may change: not at all, or metadata gets further runs; `Answered` says what that means for `ask`. Not covered, as in C64; in addition the later sessions find the top-level objects (a failing read makes the library answer that there are none, after which new objects replace the stored ones, `C39_fault_false`).
* **C67 Sessions that overlap keep each other's metadata.** False: `C67_false` is a run of two processes in which all calls succeed, and the record that the first saved is not found after the second has saved. `C67_lost` shows it for every session: whatever others saved while it worked, after it has saved, the records of all dataset versions that its own tree version list does not have are not found. `C67_last_partial` is the half that holds: all that the last process to save has asked for is found in full, whatever others saved in the meantime (`C64_saved`, with the changes by others that `Meanwhile` allows). Sessions that follow each other are C66.
* **C68 Sessions under the backend lock keep each other's metadata.** `Verif/Crew.lean` is the system: the state has the repository, the lock (`Locks`, the model of `lock_backend` and `unlock_backend` of C42), the stage of each process (no session, working, tree version list saved), and the requests of sessions that saved both objects (`saved`, which only serves the statement). `CrewStep` lists the steps: locking and unlocking, opening, any calls of C64 (`Busy`), requests, the two writes, both with any outcome and stopped after any command (the log is cut anywhere between the log before and after the write), the end of a process, and changes by others (a flush of object references is one, `flush_topKept`). Invariant `CrewInv`: a process with a session has the lock, so there is at most one (`LockInv`); the repository has no UUID set and nothing was promised, or both top-level objects are there in full, with everything that was saved (`Base`); the objects of a working session have all that the repository shows (`Covers`). Writing the tree version list moves its name last or not at all (`Intact.moved`, from the order of the commands as in C31), so the repository shows the old or the new list in full at every moment; the new one has everything of the old one. Not covered: as in C66, and a process does not go on with the objects of a session after it saved or a write failed.
* **C69 Answers do not depend on what is loaded.** False. `len(version_list)`, `Metadata.__eq__` and `Metadata.to_json` do not call `ensure_mapped` (`Verif/Asking.lean`). `Bare` says that objects that are not loaded hold nothing; reading and purging keep it (`purge_keepsBare`, `ensureMapped_keepsBare`), so in every process that began with loaded objects every unloaded list has length zero, all unloaded metadata objects are equal, and their JSON text is that of an empty object (`C69_length_false`, `C69_equal_false`, `C69_json_false`); an object made from a reference has length zero (`C69_length_stored`). For loaded objects the answers are those of the content (`C69_length_partial`, `C69_equal_partial`, `C69_json_partial`). C65 is therefore about loaded objects.
* **C70 A path is in a file tree exactly if it has metadata.** False for inner nodes. `C70_in_partial` and `C70_get_partial` say exactly when `in` is True and what `get_metadata` returns or raises, for all trees, whatever part is loaded, while git works; `C70_false` says that every proper prefix of a path with something at it is in the tree and that `get_metadata` raises an `AssertionError` for it. `MTreeNode.__contains__` and `contains_child` look the text of the path up among the names of the children: right for one component (`C70_node_partial`), never True for more (`C70_node_false`).
* **C71 While git works, sessions succeed.** The liveness side of C64. Git has to work only at the moment of the request or the saving: during the calls before, any command may have failed, in which case the calls raise (`Live` says nothing about the commands to come; its lemmas `..._any` hold for every outcome). The exception is `Mild`: a request must not fail halfway for a version of a root dataset that is not listed yet (C74). The invariant of a session (`Desk`) is extended by `Kempt`: no tree inside the content is empty, dataset trees hold root records exactly under the reserved name, elements of the tree version list are dataset trees, and everything that is not loaded is saved. `Orderly` is `Busy` restricted to calls that put root records only under their own name. `C71_opens`: opening succeeds for a repository without a tree version list, in any case, and for one that is `Stocked`, while git works. `C71_answered`: at every point of a session every request is answered, with a record unless `auto_create` is `False`, and nothing is written. `C71_saves`: at every point both `write_out` calls succeed, for all recursion limits from some number on. `C71_again`: the repository after that is `Stocked` and trim again (`TrimAt`), so the other theorems apply to the next session. Assumed per session: the entries of stored trees have hashes (`HashTrees`), which git makes sure. Without the restriction to `Orderly` the claim is false: an element put into a dataset tree in the way of a path blocks it (C12), and an empty tree cannot be saved.
* **C72 Sessions that were stopped do not get in the way of later ones.** C71 for whole histories, without its assumptions about the repository. `Past` (Props/Again.lean) describes what a repository holds after any number of sessions that began with an empty one; each session works (`Orderly`; any git command may fail, also while the repository is opened) and ends while it writes out the tree version list or the UUID set: any command of the write may fail and the process may stop after any command (the log of the repository is any suffix between those before and after the write). Invariant `Usable`: trees are made of hashes (`mktree_hash`, Hashes.lean: `git mktree` stores nothing else, whatever it is given), the content is trim, and the repository is `Stocked`, or there is no name for the UUID set and the tree version list is absent or can be read. `C72_opens`, `C72_answered`, `C72_saves` are then C71 for each such repository; a session that saved is a history again. Example: the first session of C64 stopped after its first write.
* **C73 A process that holds the backend lock can always work.** C72 for processes that run at the same time, over the system of C68 (`Crew`). `TeamStep` (Props/Together.lean) are the steps of `CrewStep` in which git works while a process makes new top-level objects, and the calls are those of `Orderly`, where any git command may fail; `TeamRun.crew` shows that these runs are runs of C68, so that what is saved is also kept. Invariant `TeamInv`: `LockInv` (C45), a process with a session holds the lock, the repository is `Usable` (C72), a process that works is `Lively` (C71) over the repository as it is now, and one that has saved the tree version list can write its UUID set. `StageLive.others` keeps this when others change the repository, `Usable.first` and `Usable.set` when a write ends anywhere. Not covered: git commands that fail while a repository without metadata is opened (C75). Example: a process that is killed between the two writes, and the next one.
* **C74 A call that fails does no lasting harm.** Props/Rough.lean. False: `get_metadata_root_record_from_top_nodes` puts a new, empty dataset tree into the tree version list before it loads the version list of the dataset (common.py 229-251); if that load fails, the empty tree stays listed, is saved without an error, and is in the next session an element that is neither loaded nor stored, with which no changed list can be written (`C74_false`, by `C52_fails`). Otherwise it holds: `C74_answered_partial` and `C74_saves_partial` are C72 for a session that goes on, when git works again, after any failures.
* **C75 A repository with metadata is not taken for an empty one.** False for every repository: the `except RuntimeError` of common.py 74 makes no difference between a missing name and a failing command (`C75_fails`, `C75_denied`), and what such a process saves replaces everything (`C75_lost`, from `Bench.saved`; `C75_false` is a run in which all calls succeed). `C75_partial`: while git works, for all histories of C72, there is no metadata exactly if there is no name for the UUID set.
* **C76 Metadata added in a session is stored and found.** Props/EndToEnd.lean, the composition of C64, C71, C72 and C77. The calls of a client are given (`getDlm` and `addExtractorRun`; `fileRun` is the program that gets or makes the file tree of a record, adds a new metadata object at a path and a run to it); each is shown to succeed on the bench of the session (`Bench.addsRun`, `Bench.treeOf`, `Bench.fileRun`) and to be a step of `Orderly`. `KeptRecord` is the promise about saving and all later processes (`C76_kept`, from `C72_saves` and `C64_saved`). `C76_added` and `C76_filed` are about records that a session has got in any way, `C76_more` about a run added to the metadata that a file already has; `C76_new` is about records that are not there yet and assumes nothing about the outcome of any call.
* **C77 New records are empty.** A clause about the content of new records is carried through `recordFor_run`, `ownPart_run` and `rootRecord_run` (`FreshRecord`): the entries made afterwards are in objects that the record does not reach.
* **C78 A process can open the repository again.** Props/Process.lean. A process is `Idle` if its caches are empty (they are, unless `cache_realm` was called, C18, C19); it can have any objects in any state, including unsaved changes. `Opens` lets a session begin in any idle process: `Idle.side` relates it to the same process without its objects (`World.cleared`), where each call has the same result (`Twin`, `twin_topLevel`), so C64, C66, C67, C68, C71, C72, C73 and C76 hold for sessions of long-running processes and are seen by them. `C78_opens`: opening succeeds and says whether there is metadata; `C78_current`: what it shows is what is stored now; `C78_opened_keeps` and `C78_keeps`: objects from before are not changed by a session, not even by its saving; `C78_again`: after a session the process is idle, whatever the repository becomes (`World.resumed`); `C78_saved`: the process finds what it saved itself. The process must get its top-level objects anew; those of the session before are not updated (C67).
* **C79 What sessions saved survives garbage collection.** Props/Tended.lean. `Tended` is a history of sessions in new processes, each with any calls (`Orderly`, any git command may fail while it opens and works), each saving both top-level objects and flushing the object references with success; others may store objects in between. Every call of a session is a course of steps in the sense of C43 (`Lives`, Verif/Tended.lean), so no assumption on the state of the process is left, and the tree version list has only dataset trees as elements (`Usable.noRecords`, from C72). Hence git reaches everything that reading the tree version list takes (`C79_reached_partial`), garbage collection changes nothing that is read from it (`C79_collected_partial`), and what the session had in memory is what is read afterwards (`C79_saved_partial`). Missing: the UUID set. It is false there (`C79_false`): a session gets a record from the UUID set and its version list, adds a run, saves and flushes; the changed record is stored, but is in no dataset tree and is not an object reference, and garbage collection removes it.

## 4. Where the code does not do what a user would expect

Found by reading and proved about the model. Nothing was run.

* One git command that fails while a repository is opened makes the library answer that it holds no metadata; with `auto_create` the saved result replaces all of it (`C75_fails`, `C75_lost`).
* A request with `auto_create` that fails while it loads a version list leaves an empty dataset tree behind; once it is saved, no later session can add a version to the tree version list (`C74_false`).
* Of two processes that work on a repository at the same time, the one that saves last removes what the other added, without an error: the names of the top-level objects are set without a look at their present value (`C67_false`, `C67_lost`). The library takes the backend lock itself only in `flush_object_references` (objectreference.py 119), so a session is protected only if its caller takes the lock (C68).
* `len`, `==` and `to_json` of objects that are not loaded answer as if they were empty (`C69_length_false`, `C69_equal_false`, `C69_json_false`).
* Inner nodes are `in` a file tree, but `get_metadata` raises an `AssertionError` for their paths (`C70_false`); no path with several components is `in` a tree node (`C70_node_false`).
* A failed `write_out` that is repeated can return a reference to the old content (`C51_false`).
* A failed `FileTree.write_out` leaves the blob cache of the repository registered: later file-tree writes fail, later metadata writes return references to objects that are not stored (`C29_*`).
* `write_out` of an empty UUID set always fails (`C53_false`); so does `write_out` of a tree with an empty inner node, which `remove_child_at` leaves behind (`C27_false`; `C27_removed_fails` for every tree and every removal). The failed write marks the empty node as saved, so that the write after it succeeds: it stores nothing and returns the reference of the tree from before the removal (`C27_stale_false`).
* A version list read from a repository in which an element is empty cannot be written after a change (`C52_fails`).
* A tree version list that was written in a process cannot be purged and read again (`C25_false`), and no copy of one can be read (`C24_tree_list_false`), because its reference names the class `VersionList`.
* Copies of `Text` objects are empty (`C24_text_false`). `deepcopy` without destination always fails (`C24_no_destination_fails`).
* Root records without dataset-level metadata cannot be purged or copied (`C26_false`, `C24_bare_fails`); `get_dataset_level_metadata` raises instead of returning `None` (`C56_false`).
* `FileTree.add_extractor_run` always fails for paths without metadata (`C16_false`).
* `UUIDSet.set_version_list` on a set that is not loaded makes the set unusable (`C34_false`).
* Listing an empty tree that is not loaded raises `ValueError` (`C14_false`); listing a tree that is not loaded returns objects that do not belong to it (`C55_false`).
* A dataset tree contains "a" after an addition at "a/" followed by the reserved name (`C15_false`).
* A part that is saved on its own makes its container look saved: the container cannot be written any more, and its reference leads to the old content (`C21_false`, `C21_lost`).
* `unget_versioned_element` raises `KeyError` for a list that is not loaded; `unget_version_list` always fails for a version list that was not written or read before (`C59_fails`).
* An empty destination string lets parts be written to the repositories they belong to (`C23_false`).
* Names with newlines do not survive `git mktree` (`C46_false`); texts with other line ends than newline do not survive `git_load_str` (`C49_false`).
* `Metadata.__eq__` raises for metadata with two or more configurations for one extractor (`C10_false`).
* `common.py`: a lookup without auto-create can add an entry to a version list (`C35_false`); a request can return the record of another dataset (`C37_false`); after a second session the UUID set shows an old record (`C38_false`); a stop between the two saves, or one failing git command, makes auto-create replace everything (`C39_false`, `C39_fault_false`).
* `treeupdater.py` does not unquote names (`C40_false`). `objectreference.py` treats a failing read as an empty store (`C41_false`).
* The backend lock is not exclusive if one process uses two paths for one repository (`C45_false`).
* After a failed file-tree write, a tree version list that is written next can be published without its metadata (`C31_false`).
* A root record with an empty file tree reads back like one without file tree, but is stored differently, so equal dataset trees get different references (`C30_false`).
* Root records that are elements of version lists (so all records in a UUID set that has no tree) are not protected from garbage collection (`C43_false`); pending object references are kept for all repositories together and go to the one that is flushed first (`C43_other_false`).
* If the first read from a remote is stopped inside `git init` of its cache, all later reads from it fail (`C47_stuck`).
