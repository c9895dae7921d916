# Formal model of ilbers/isar in Lean 4

## Trusted base

* Lean 4.33.0's kernel. Nothing is proved by compiled code: no `native_decide`, no
  `bv_decide`, no `sorry`, no axioms of our own.
* Axioms: every theorem depends on at most `propext`, `Classical.choice` and `Quot.sound`.
* The translation from Python / shell to Lean in the `*Model.lean` files. Each definition
  cites the file and lines it models and states its simplifications.
* External programs (parted, mkfs, mount, apt, reprepro, the kernel's FIEMAP and SEEK_DATA
  answers, the network) are parameters or are represented by the requests sent to them.

## Layout of `/verif/lean/Verif`

* `Py/` - the Python built-ins used by several models (strings as lists of characters,
  `split`, `join`, prefix and suffix tests).
* `<Area>/*Model.lean` - the code, function by function.
* `<Area>/*Spec.lean` - small specifications in which the properties are stated; they do not
  use the helpers of the model.
* `<Area>/*Props.lean` - the property theorems, each with an example showing that its
  hypotheses can be met.
* `<Area>/*Lemmas.lean` - helper lemmas.

Strings are `List Char` (`Str`). Python exceptions are `Except` values or `Option`.

## Plan per property

| id | modelled | how it is proved |
|---|---|---|
| C01 | `layout_partitions`, `create` as a fold over part lines | induction over the list with the invariant "everything placed so far ends at or before the current offset" |
| C02 | same | same invariant, final offset against `min_size` |
| C03 | same | per-step arithmetic, lifted over the list |
| C04 | same | per-step arithmetic, lifted over the list |
| C05 | `__init__` realnum computation and `layout_partitions` | simulation of the two counters; counterexample for `--type logical`, partial theorem for default types |
| C06 | `layout_partitions`, `create` | invariant on extended size; counterexamples for `--offset`, `--no-table`, mixed types; partial theorem |
| C07, C08 | `sparse_copy` over byte lists, maps as range lists | induction over ranges and chunks, pointwise on bytes |
| C09 | range merging generators | induction over extents |
| C10 | `sizetype` on strings with `int()` | case analysis, string lemmas |
| C11, C12 | option validation of `_parse` | decision logic, counterexample for `--overhead-factor=1.5` |
| C13 | `expand_line` with fuel and a termination measure | induction on the number of references |
| C14 | size computations, overhead factor as a rational | arithmetic |
| C15 | `update_fstab` | list induction |
| C16-C18 | isar-sstate commands over a finite map of files | invariants over the file map |
| C19, C20 | list helpers | counting lemma; reachability of a depth first search |
| C21-C23 | multiarch name handling | list induction, case analysis |
| C24, C25 | apt source helpers | list induction |
| C26-C29 | image type handling | induction on suffix depth |
| C30-C32 | task protocol as a transition system with failures, mount table | invariants over all runs |
| C33, C34 | path guards | counterexamples and partial theorems on path components |
| C35 | account commands run against a specification of useradd, usermod, groupadd, groupmod, chpasswd and passwd | induction over the entries |
| C36, C37 | version and dependency parsing | order laws by induction, round trip |
| C38-C40 | copy-on-write and datastore | refinement to a functional map |
| C41, C42 | assembly of the image file, identifiers | pointwise on bytes; injectivity of decimal texts |
| C43-C46 | `root=` text, hybrid MBR, flags, table options | case analysis, counterexamples |
| C47-C50 | kickstart file reader | fuel independence, simulation of the line loop |
| C51 | native dependencies | case analysis over the build mode |
| C52, C53 | one line of an apt sources list | split/join round trip, counterexamples |
| C54-C56 | image tasks and their order | list lemmas, counterexamples |
| C57-C61 | isar-sstate: ages, crash points of upload, names, lint, downloads | round trip, prefix of a run, invariants over runs |
| C62-C67 | templates, links, `oe.path` | path components; `realpath` against an inductive description of path resolution, soundness and completeness |
| C68, C69 | version strings and operators of `bb.utils` | characterisation of the parser; order of parts |
| C70-C72 | overrides, reading back, carried removes of the datastore | invariant over histories of assignments; frame of all operations; bounds of the loops |
| C73, C74 | lock files: one transition per system call, any number of processes, crashes; several locks per task | invariant over all reachable states; rank argument for deadlocks |
| C75-C77 | task graph: marking, pruning, weights, schedulers | depth first search is reachability; invariant of the peeling of endpoints gives a topological order or a cycle |
| C78 | build_scenequeue_data: collapsing of the task graph | the worklist computes reachability through tasks that cannot be restored, in any order; topological induction |
| C79-C81 | RunQueueExecute as a state machine with the outside world as input of each step | invariants over all reachable states; a log of events is part of the state |
| C82, C83 | the same | second invariant (nothing is forgotten), and a measure that every step without a task in flight lowers |
| C84 | features_check: decision logic | case analysis against a specification with words of variables |
| C85-C87 | progress handlers: line buffers, regular expressions, stages with exact rationals | concatenation law of `write`; invariants over stages |
| C88-C92 | `Fetch.download` for wget and `file://` as a state monad over files, done stamps, a clock and a script of disk events; answers of servers are a parameter | Hoare triples; the invariant that done stamps newer than their file are true, over all histories; closure of invariants under single operations for crash points |
| C93 | `decodeurl`, `encodeurl` with the regular expression as a function on characters, `quote`, `unquote` for ASCII | round trip law, from conditions that name what each part must not contain |
| C94 | `trusted_network` | decision against a specification with labels of domain names, and against the host that RFC 3986 says is contacted |
| C95 | `mirror_from_string`, `build_mirroruris`; `uri_replace` is a parameter | invariant of the recursion; a derivation relation that uses each line once |
| C96 | `srcrev_internal_helper` | decision logic |
| C97 | `generate_dependencies`, `generate_dependency_hash` | two worklist loops refine the closure of the dependency relation; frame and sensitivity from that |
| C98 | `dump_sigtask`, `calc_basehash` | round trip |
| C99, C100 | `build_dependencies` | decision logic, with witnesses for what is missed |
| C101 | `handle_contains` | the text determines the results of the tests and is determined by them |
| C102 | loop of `RunQueueData.prepare`, `get_taskhash` | the loop refines an inductive relation, for every order; the relation is functional and invariant under permutations |
| C103, C104 | `get_taskhash` | induction over that relation and over paths |
| C105 | `dump_sigtask`, `calc_taskhash` | round trip |
| C106 | `sstate_rundepfilter` | decision logic |
| C107 | locked signatures | induction over the tasks, with witnesses |
| C108 | Names as lists of characters, cutting as integer arithmetic. | Lengths by arithmetic; names are told apart by what comes after the last colon. |
| C109 | The name that a task writes and the one that is looked for, from the same recipe. | Case distinction; a witness for the tasks where they differ. |
| C110 | The decision for one archive as a function of the tasks that depend on it. | Equivalence with a condition stated over names only. |
| C111 | Any number of processes that write the same archive, as a transition system with failures, kills and mirrors. | Invariant over all events; a file that can be opened does not change any more. |
| C112 | The same. | Invariant; witnesses for hidden failures and files that are left. |
| C113 | The shared directory as a map from paths to files, links and directories; the checks, the manifest and the copies as a list of steps of which any part may be done. | Effect of any set of copies at one path. |
| C114 | The same, and the loop over the lines of the manifest. | Every line read from a part of the manifest is the beginning of a line; directories from the deepest up. |
| C115 | The same. | The same; witness for a line that is cut off. |
| C116 | Indices, manifests, stamps and what machines have seen, as a state; tasks that run, stop or are cleaned, and the handler, as steps. | Invariant over histories; the names of Isar meet its conditions; witnesses for what the conditions leave out. |
| C117 | The same, with the loop over the index from its last line. | From the invariant; witnesses for images and preserve-stamps. |
| C118 | `expandWithRefs`, `var_sub` and the cache of `getVarFlag`, with the loop and the depth of calls bounded by parameters. Separate: trees of texts and a relation that says what they mean. | Induction over the relation: the layers of references that the passes remove, one after the other. Through an invariant of the cache for all histories. |
| C119 | The same. | The loop ends only when a pass changes nothing; a pass that changes nothing has no set reference (a substitution cannot be undone by the others). |
| C120 | The same. | Circle: induction over the depth. Witness: the text in each pass of the endless loop, by induction. |
| C121 | The same, with histories. | Invariant of the cache; witness for noweakdefault. |
| C122 | The awk program as four rules on a state, `sort -u`. | Refinement of a list of packages to its lines. |
| C123 | `comm`, the download loop with apt as a parameter; runs and stops. | Membership; invariant over histories; witnesses. |
| C124 | Import and export as folds over directories; any number of root file systems. | Invariants over histories. |
| C125 | The same, with the variables that the quoted script sees. | Lookup after the fold; witness for the variable that is not exported. |
| C126 | A repository as lists by architecture; clean, add, stop. | Closed form of the fold; crash points as prefixes. |
| C127 | The same, with `repo_contains_package` and its three results. | Invariant over histories; witness. |
| C128 | `providers.py` over a cache of files; versions and priorities. | Folds; order of versions from `Bb/Version*`; witnesses. |
| C129 | `_filterProviders`, with the early return for required versions. | Permutations; witness. |
| C130 | The loop over a list that changes. | Permutations; witness. |
| C131 | `taskdata.py` as functions over its dictionaries, with exceptions that keep the state; recursion with a bound. | Invariants over the mutual recursion and all histories; witnesses. |
| C132 | The same. | Inductive predicates for hopeless and broken; induction in both directions; witness. |
| C133 | The same. | Measure: files that have not failed, names without provider. |
| C134 | The functions of `sbuild.bbclass` as lists of steps on what `/etc/schroot` has under a name. | Projection of any schedule to one name; induction over the lines; witness. |
| C135 | The tasks that use them, with the step that fails as parameter. | Cases on the step that fails; witness. |
| C136 | The edits by `sed` and `grep` on lists of lines; what `sed` makes of a text is a parameter. | Refinement of the file to a list of variables; induction; witnesses. |
| C137 | The repository and its copies with files as inodes. | Invariant over all histories: inodes are not written twice. |
| C138 | The regular expressions of ConfHandler as functions, with their choices in order. | Against a grammar of lines: both directions, and uniqueness. |
| C139 | The loop over the lines of a file. | Induction over the file, against a grammar of files; counterexamples for comments in between. |
| C140 | The state machine `feeder` and the loops around it. | Against a grammar of files, both directions, by induction over the lines; lines against C138. |
| C141 | Sequences of files with the global state. | Invariant: no definition is open after a file. |
| C142 | The regular expression for `addtask`, as a function. | The last place of a word in a text; counterexamples. |
| C143 | `addtask` and `deltask` on the lists of tasks and of their dependencies. | Refinement to relations over histories. |
| C144 | `handle`, `inherit` and `include` over a set of files that are lists of nodes. | Invariant: a class has been entered as often as it is in the list of inherited classes. Termination: a measure from the classes that are left and the height of the file. |
| C145 | `virtualfn2realfn`, `realfn2virtual`, `variant2virtual`. | Round trip. |
| C146 | `_save` and `_restore` with the numbers of every process. | Simulation: the numbers of the writer mean the same to the reader; induction over interleaved messages. |
| C147 | `cacheValidUpdate` over a history of worlds; reading a recipe is a tree of looks at files, with moments for times and contents. | Characterization of valid entries, then induction over the tree. |
| C148 | `patch_path`, `should_apply` and `src_patches`, with the parameters as a dictionary. | Characterization of `os.path.splitext` and of each limit; induction over the items. |
| C149 | `patch_do_patch` with `QuiltTree` or `PatchTree`; what a patch does is a parameter. | Induction over the patches. |
| C150 | The states between the steps of `patch_do_patch`, from each of which it is started again. | Invariant over these states; witnesses for the rest. |
| C151 | The global tables of handlers, over a history of configurations and recipes. | Refinement to a list of handlers with their own masks; invariants over the history. |
| C152 | `vars_from_file` with its table of answers. | Round trip from parts to names; invariant of the table. |
| C153 | `multi_finalize` with the effects of classes and of `finalize` as parameters. | Look-up in the result; the test with a substring holds for the name itself. |
| C154 | `runQueueWorkerPipe.read`, `runQueuePipe.read`, `handle_item`, `send_pickled_data`, the queue, the printed text and the writing thread of the worker, as functions of bytes; `pickle` is a parameter. | More bytes do not change what is at the front of a queue, so pieces do not matter; an invariant of the worker over all acts; witnesses for data with tags and for a stopped task. |
| C155 | `deb_add_changelog` as a function of the files it reads and writes, and all states in which it may be stopped. | The specification is stated from the changelog of the sources; invariant over histories of runs; witnesses for the rest. |
| C156 | `deb_list_beautify`. | Splitting a joined list gives its parts, and every text is such a list. |
| C157 | The handlers of `isar-events.bbclass` over a sequence of events, with the files that are there. | A file is there if and only if the task was started and did not fail since: induction from the end. |
| C158 | `build_completed` with the text of `/proc/mounts` and a table of mounts of the kernel. | Induction over the table, the newest first; what is above a mount is below the work directory, too. |
| C159 | The names that `container_fetcher.py` and `container-loader.bbclass` make. | The last separator is found again in a name without it in its end. |
| C160 | `container-loader.sh` with all states in which it may be stopped. | Invariant: each image has its file or is in the engine. |
| C161 | `rootfs_add_files` with the files of the host and of the root file system. | Induction over the entries; witnesses for the rest. |
| C162 | `get_locale_gen` and `get_nopurge`. | Splitting a joined list gives its parts; two sorted lists with the same elements are the same. |
| C163 | The expression of `sed` as a function of names, the names of the kernel as specification. |
| C164 | Both expressions of `sed` on lines of text. Partitions as records that are written as `sfdisk` writes them: the new text is that of the changed records. |
| C165 | All states in which a boot may stop, histories of boots. |
| C166 | The search for devices as a function of what the kernel tells; stacks of devices as an inductive relation. |
| C167 | Configuration, flow and policy as functions; where each value comes from by induction over the command line. |
| C168 | The same, for the device. |
| C169 | The flow with the outcome of the lock and of copying as parameters. |
| C170 | The search for devices; what is excluded, exactly, for usual names. |
| C171 | The text that is written for a variable, and how a shell reads text in double quotes; round trip for plain values, witnesses for others. |
| C172 | The rounds in which functions are found; closedness by induction over names not yet seen. |
| C173 | Calls, events, files and exit codes of the process of a task, with every failure as a parameter; all ways listed once, claims from them. |
| C174 | Names of stamps, masks and their patterns on a list of files; histories of runs. |
| C175 | The environment as a dictionary: emptied, filled, and that of the worker put back. |
| C176 | The buffer and its loop; induction over pieces against a list of messages. |
| C177 | The table and the statements that change it; an invariant (one value for a key), and growth of rows, by induction over histories; exports and imports as a list. |
| C178 | The same with history; rows stay. |
| C179 | A server with what it has in memory and in the file; a witness, and an induction over requests. |
| C180 | The tables and requests in steps, with reports that wait for an upstream server; induction over steps. |
| C181 | Invariants over all interleavings (where a hash may come from) and over serial histories (same output, same hash); witnesses. |
| C182 | Marks of rows as an invariant between the mark and the sweep; conditions as lists of columns against a specification by columns. |
| C183 | Handlers with what they need; each request by cases; induction over histories for the permissions of a connection. |
| C184 | Layers with a pattern as text and function, trees of names, the two stable sorts; prefix order for literal patterns; pairwise order through the fold; an invariant over the fold for overlayed files. |
| C185 | Masks as texts, regular expressions as parameters for which a bar is an alternation (with an instance); induction over the masks. |
| C186 | Names cut at the %; lemmas about prefixes; the additions are a sublist of the sorted files. |
| C187 | The sets of patterns as tests over lists; both directions by cases. |
| C188 | The stream as a text; pieces with where they are; round trip by induction over pieces and messages, and for each prefix of the stream. |
| C189 | The state of an entry through a list of answers of the system; what a check does by cases, induction over the history. |
| C190 | The texts of entries cut at commas; decimal numbers as in other modules; induction over the words. |
| C191 | Any number of processes with their tables, the cache on disk, the parts that are left, files with contents and times; an invariant over all steps (all entries are right for the content a file had at a time; kept times are those of the files). |
| C192 | The text of the list, the split by the regular expression as a small machine; induction over the entries. |
| C193 | The trees of C184; the text that goes into the hash is that of the model of task hashes. |
| C194 | The file system as a list of paths with files (inodes), directories and links; copy, include, exclude and fstab as functions on it; what is at each path of the result. |
| C195 | The same model; the paths and contents that are not at or below the copy are compared before and after, for all arguments. |
| C196 | The writer and the reader of the file as functions on texts, a round trip by induction on the list of variables; the object that keeps variables as a state with an invariant over all questions. |
| C197 | The search as a function of the files there are; compared with the first element of a list of places. The file of a template with the model of C33. |
| C198 | The search for names and `envsubst` as functions on texts, compared with a template as a list of pieces. |
| C199 | The expression as runs of characters, entries and patterns; compared with a list of items and how they are written. |
| C200 | `install -D` on a list of files; induction over the files, that none is in the way of another as the invariant. |
| C201 | The two searches as recursions, compared with the first one in the list. |
| C202 | Files as lists of settings and other lines, with the value the parser gives them; the two passes by induction over this list, step by step over the lines of a setting. That lines with all eight operators are found, with `every_operator`. |
| C203 | The same passes; patterns compared with equality and with paths that end with a name. |
| C204 | Model of `FetchMethod.unpack` on a file system of paths; induction over the URLs, each puts the tree of its source at its place; the search path by induction. |
| C205 | The table of suffixes ordered such that no later one ends with an earlier one; the redirection of the shell modelled as emptying the file first. |
| C206 | Each command changes only places below a path that has the work directory as its beginning; induction over the URLs. |
| C207 | Directories as trees in the order of their listing; membership in the walk by mutual induction; the fold over the files as a maximum; two worlds with the same files compared. |
| C208 | The states of the files after each step of writing; reading with and without the cache; round trip of numbers and texts. |
| C209 | Pointwise minimum. |
| C210 | A file tree is a list of entries in the order of the listing, the function gives the hashed text. Sorting by names forgets the order (induction over trees); a line depends only on what counts. |
| C211 | The text is parsed back: lines, columns, paths. Injectivity of each, then induction over the tree for which paths have lines. |
| C212 | The names of images and of recipes are two functions of the configuration; equal for all values. |
| C213 | The name of the variant for an image is the common name with the image appended, if the image is a suffix; else a witness. |
| C214 | What is unpacked from git is the pinned revision, in its branch; fetched means unpackable | theorems about the fetch and the unpacking of any URL |
| C215 | Fetched revisions stay, over histories of fetches, kills, pushes and garbage collections | invariant over events: the clone is behind the server; witnesses for replaced branches and shared clones |
| C216 | A fetch recovers from any state of the clone | theorem with the exception of references in the place of others; theorem that this exception never goes away |
| C217 | Names of clones and revisions of names | injectivity of the name of the clone; decision logic of the latest revision |
| C218 | Links of the SDK lead to the same files wherever it is put | big-step relation of path resolution; both directions by induction on derivations; witnesses for links that go up |
| C219 | The relocation of the SDK sets interpreters whatever the old place was | patterns of the shell; the shortest suffix is found by counting slashes |
| C220 | An image is marked with one line per field | theorem over all files that end with a line feed; witness for others |
| C221 | The processes that parse, their buffers, the pipe and the collector as a transition system with kills. | Invariant: every recipe is in one place; what the end of the collector says about it. |
| C222 | The same system, unending fair histories. | A measure that no event increases and that every running process can decrease; then a rank of the collector. |
| C223 | The number of processes, the lists they are given. | Proved for positive numbers, witness theorem for none. |
| C224 | `compare_sigfiles` with lines as data; the hashes of `TaskHash` and `Sig`. | No line about a part means that the part is the same. Witness theorem for files in another order. |
| C225 | `dict_diff`, `file_checksums_diff` with its counters. | Counting of entries through the loops; membership. |
| C226 | The order of files in `TaskHash`. | Sorting commutes with maps that keep the order. Witness theorem. |
| C227 | `configFragments` on decoded sources. | Characterisation of the test of the ending. Witness theorem. |
| C228 | `listed`, `copied`: names of files in the source tree. | Both names lead to the same file, for any directories. Witness theorem. |
| C229 | The loop over the overlays with its variable. | Induction: right if and only if no absolute one follows a relative one. Witness theorem. |
| C230 | The commands of the script. | Cases, and induction over the overlays. |
| C231 | `copyhardlinktree` on lists of paths with inodes; the answers of the system are parameters. | Membership in the selection by the patterns; if and only if for completeness and failure. Witness theorems. |
| C232 | Histories of operations on the destination, contents kept by inodes. | Induction over the history; the inodes of the source are never written. Witness theorem. |
| C233 | The variables set by crossvars and the two chroots as records. | Cases of the condition; recipes have different names. |
| C234 | The compilers among the packages of the chroots. | Cases of the architecture of the package. Witness theorem for what must be enabled. |
| C235 | The text of the options, its words, and how the program reads them. | Equivalence by cases of each value; what is read is monotone. Witness theorems. |
| C236 | The loop over the kernels, files in the order of `find`. | Invariant of the loop: where contents come from; a prefix comes first in the order. Witness theorems. |
| C237 | Two threads with a shared table and command, all interleavings; the events as a log. | Inductive invariant with one case per place of the command; a rank that falls with each step. Witness theorem. |
| C238 | As C237, with exceptions at any place. | The same invariant without the log. |
| C239 | One turn of the server's connection loop as a function of what is ready; the log of what happens is checked by a small machine for sessions. | Invariant of the loop, induction over the turns. |
| C240 | As C239, with connections and turns in the log. | Invariant (turns, then waiting = connections) while at most one waits; witnesses for the last one first and for waiting for ever, the latter by induction over the number of others. |
| C241 | As C239, with timeouts, failures and things that are no messages. | Case analysis of the turn in which the loop ends; witnesses. |
| C242 | The table of commands with their marks, the choice of the command and the request handler as functions. | Case analysis; membership in the table by the kernel; witnesses for all asynchronous commands. |
| C243 | Sequences of requests with tokens. | Induction over the requests; the check of the token as it is written. |
| C244 | Files as a function of paths, with or without /sbin as a link to /usr/sbin; the diversions of dpkg, by names as they are written; setup, unpacking of packages and cleanup as functions. | A relation between the file system with the setup and without, kept by unpacking and undone by the cleanup; witnesses. |
| C245 | The commands of the finalization as a list, cut off at any place and run again. | Case analysis of the place. |
| C246 | Client and server of the hash equivalence protocol with modes, connections that fail at any message and answers that wait to be read. | Invariant: both ends agree on the mode and no answer waits; a rule for repeated attempts; witnesses with late answers. |
| C247 | The same; the failures are counted. | A rule for attempts of which each failure costs one fault; witnesses. |
| C248 | The event handler as a function on dictionaries in the order of their keys; the tasks that run as a list. | Induction over the events with a relation between the dictionaries and the list; witnesses. |
| C249 | Transition system of the two threads with the lock. | Invariant about the queue, the flag and the place of each thread. |
| C250 | The anonymous function of the class as a function from recipes to recipes. | Induction over the list; witnesses. |
| C251 | The dependencies of recipes with those of the class as a relation. | A rank function; general witness. |
| C252 | The tree as a list of paths and nodes, tar's transformation as a function on strings. | Induction over strings. |
| C253 | The pool as a transition system in which tasks take their steps in any order; the lock is held over a wait only while a connection is made. | Invariant with the number of idle connections and of tasks that were told; a weight that each step lowers; a history for the dead pool for every size. |
| C254 | The same, with the results when `gather` ends. | From the invariant; witness. |
| C255 | Files as lists of lines; the first marker with the blank lines around it. | Equations for all templates and files; witnesses. |
| C256 | The fold over the table of markers. | How often each marker is there is preserved; induction over the table. |
| C257 | The calls of the system with every state between them and a failure at each. | All states are classified; witnesses for links. |
| C258 | The same. | The same. |
| C259 | The work directory as a function from names to files, one partition after the other; sparse copies as in `Wic/Filemap*`. | Names of copies are injective; frame lemmas and induction over the partitions; witnesses. |
| C260 | Environments as dictionaries; the server with its own environment, that of the client and the variables in the metadata. | Invariant: what is in the metadata follows from the two environments; induction over the clients. |
| C261 | The same. | From C260; witnesses. |
| C262 | The files of the work directory as a function; the package as a list of places and texts. | What is installed is characterised for all recipes; witnesses. |
| C263 | The same, with the name of the hook. | The name is injective on names of the usual form; witness. |
| C264 | Paths as in `Py/Path`; a small language for the regular expression that HOME is taken for. | The guard is characterised for all paths and homes that stand for themselves; witnesses. |
| C265 | The postinst script as a list of commands on the text of /etc/modules; histories of the package. | Counting of lines over all histories; witnesses. |
| C266 | The same, with the status of the script. | Equations for all lists; the negation for all lists that are not empty. |
| C267 | The check of the list of packages. | Characterised for all lists; witnesses. |
| C268 | Trees as lists of paths; the star of the shell, `find` and the layout of images. | Characterised for all trees; witnesses. |
| C269 | The same. | Equations for all trees and tags; the negation for one tag. |
| C270 | Hashes and identifiers as lists of hexadecimal digits. | Positions in the text, injectivity of the format; an equivalence for all pairs of hashes. |
| C271 | Search paths as texts, the test for a file as a parameter. | Induction over the directories. |
| C272 | Paths as texts, the identity of a file as a parameter. | Induction over the components, the loop over texts is shown to visit every directory above. |
| C273 | Patterns and their matching as parameters. | Invariant of the loop; counterexamples for nested layers and for entries with wildcards. |
| C274 | Environments as functions, the block as any function. | Induction over the variables. |
| C275 | Lines of /etc/passwd as texts. | Equivalence with an entry for the user; counterexample for users of a directory service. |
| C276 | Root file systems as lists of paths with entries, the substitution of tar on texts. | An equivalence for packing and unpacking; counterexample for a link. |
| C277 | Paths as components, patterns with one asterisk. | Induction over the components; counterexample for hidden names. |
| C278 | Names as texts, lines of dh_install as words. | Induction over the names; counterexamples for blanks and for `debian`. |
| C279 | Tables as lists of rows, attempts as a list of what SQLite does, changes of others as functions. | Induction over the attempts; laws of the table. |
| C280 | The same, with the exceptions that are taken. | Equation without locks, counterexample for any lock. |
| C281 | Processes in steps, any interleaving, any answers of the server. | Invariants of runs; counterexample for two processes. |
| C282 | Start and comparison on the same tables. | Cases of the policy; an equivalence for the comparison. |
| C283 | Addresses as texts, the regular expression as a function. | Reading what was written, for all hosts and ports; refusal of other texts. |
| C284 | Paths as texts. | Directory and name of all paths with a directory; counterexample for all without. |
| C285 | Values and flags as texts. | Splitting and joining for all texts; counterexample for unset variables with a separator. |
| C286 | The same. | Equivalences with the documented words; counterexample for unset booleans. |
| C287 | The loop over names, the direct references as a parameter. | Invariants of the search in breadth, reachability by induction, a bound on the steps. |
| C288 | The directory of images as files and archives, the programs as parameters. | Following the commands from any state of the directory; counterexample for other types. |
| C289 | The kept value and the differences for all sequences of samples. | Induction over the samples; counterexample for samples of 0. |
| C290 | Counters as natural numbers, quotients as pairs. | Arithmetic; counterexample for a counter that goes back. |
| C291 | Lines with names and numbers of fields. | Induction over lines, names by cases; counterexamples for later kernels and other names. |
| C292 | Calls with times, the time of the last sample. | Induction over the calls; counterexample for a clock that is set back. |
| C293 | Registered terminals with priorities, the machine as conditions. | Sorting and induction over the terminals. |
| C294 | The same with the programs that are started. | Induction; counterexample without a display. |
| C295 | The loop as a transition system, for each round the processes that have ended. | An invariant over all schedules, a measure for the end. |
| C296 | The same. | The invariant; counterexample for processes that are killed. |
| C297 | Options as texts, exceptions as `none`. | Splitting and joining, induction over the options; counterexamples for other forms. |
| C298 | Values as texts. | Splitting and joining for all texts. |
| C299 | Versions as texts. | The same. |
| C300 | Scripts as lists of commands with codes, the events in order. | Induction over the commands; counterexample for earlier failures. |

## What is modelled

The lines cited in the comments were checked against the text of `/repo`: for each range, that it is within the file,
that it does not begin or end with an empty line, that it does not run into the next function, and that the names quoted
in the comment occur there.

| module | code | not modelled |
|---|---|---|
| `Wic/Layout*` | `scripts/lib/wic/plugins/imager/direct.py`: `PartitionedImage.__init__`, `layout_partitions`, `create`, `_write_identifier`, numbers and flags | the text of the parted and sgdisk commands beyond their numeric arguments |
| `Wic/Image*` | `direct.py`: `assemble`, `update_fstab`, `rootdev`, hybrid MBR | bmap file, compression |
| `Wic/Filemap*` | `scripts/lib/wic/filemap.py`: `sparse_copy` and the three mapping classes | ioctl encoding; the kernel's answers are parameters |
| `Wic/Ks*` | `scripts/lib/wic/ksparser.py` and size functions of `partition.py` | argparse is modelled for the options used (exact, `=` and abbreviated forms), shlex by a word splitter |
| `Meta/Lists*` | `meta/classes-global/lists.bbclass` | - |
| `Meta/Multiarch*` | `meta/classes-recipe/multiarch.bbclass` | `fixup_pn_in_vars` |
| `Meta/Apt*` | apt source handling of `meta/classes-recipe/bootstrap.bbclass` | regular expressions of `DISTRO_APT_PREMIRRORS` are predicates, downloads of keys |
| `Meta/ImageTypes*` | the anonymous functions of `meta/classes-recipe/image.bbclass` | the shell commands of the types |
| `Meta/Rootfs*` | mount functions, tasks and lock of `meta/classes-recipe/rootfs.bbclass` | what the install commands do (arbitrary actions), messages |
| `Meta/Paths*`, `Meta/Realpath*` | `template.bbclass`, `root_cleandirs` of `base.bbclass`, `meta/lib/oe/path.py` (links, `realpath`, `is_path_parent`) | symbolic links except in `realpath`; copying functions of `oe.path` |
| `Meta/Accounts*` | `image-account-extension.bbclass` | reading of the variables, `openssl passwd`; the account programs are specified, not modelled |
| `Scripts/Sstate*` | `scripts/isar-sstate`: upload, clean, lint, listing, downloads | S3 and WebDAV protocols, output of `info` and `analyze` |
| `Bb/Version*` | `bitbake/lib/bb/utils.py`: `explode_version` to `vercmp_string_op` | line breaks and non-ASCII digits in versions |
| `Bb/Deps*` | `bitbake/lib/bb/utils.py`: `explode_deps`, `explode_dep_versions2`, `join_deps` | the warning of `explode_dep_versions` |
| `Bb/Cow*` | `bitbake/lib/bb/COW.py`: `COWDictMeta` | sets, nested copy-on-write values, class attributes whose name starts with two underscores |
| `Bb/Data*` | `bitbake/lib/bb/data_smart.py`: variables, operators, overrides, flags, copies; `DataNode.eval` of `parse/ast.py` | expansion (an arbitrary function), the expansion cache, history of variables, renamed variables, computing OVERRIDES (an argument), `:=` |
| `Bb/Lock*` | `bitbake/lib/bb/utils.py`: `lockfile`, `unlockfile`, `fileslocked` as a transition system | shortening of long names, directories that cannot be written, lock files removed by others |
| `Bb/RqGraph*` | `bitbake/lib/bb/runqueue.py`: `mark_active`, pruning, `--runonly`, `calculate_task_weights`, the schedulers speed and completion | how dependencies are collected (step A), `--runall`, the text of error messages |
| `Bb/RqScene*` | `bb/runqueue.py` build_scenequeue_data without the multiconfig and hash parts | hard dependencies, deferred tasks |
| `Bb/RqExec*`, `Bb/RqLive*` | `bb/runqueue.py` RunQueueExecute: execute, finish, waitpid, holdoff, scheduler next | hash changes (`updated_taskhash_queue`), worker processes, fakeroot, stamps and cache (inputs), messages |
| `Meta/Features*` | `meta/classes-recipe/features_check.bbclass`, `to_boolean` of `bb/utils.py` | non-ASCII letters in `lower` |
| `Meta/Progress*` | `meta/lib/rootfs_progress.py`; `LineFilterProgressHandler`, `MultiStageProgressReporter` of `bb/progress.py` | floating point (exact rationals instead), debug mode, time, colour codes |
| `Bb/Fetch*` | `bitbake/lib/bb/fetch2/__init__.py`: `verify_checksum`, `verify_donestamp`, `update_stamp`, `rename_bad_checksum`, `try_mirror_url`, `try_mirrors`, `Fetch.download`; `wget.py` download; `local.py` | other methods (git, npm, …), mirror tarballs, unpacking, `wget` itself and the servers (a parameter), two fetches of one file at the same time (locks: `Bb/Lock*`) |
| `Bb/Url*` | `bitbake/lib/bb/fetch2/__init__.py`: `decodeurl`, `encodeurl`, `trusted_network`, `mirror_from_string`, `build_mirroruris`, `srcrev_internal_helper` | characters outside ASCII in paths, `uri_replace`, more than one tarball per URL, `class URI` |
| `Bb/Sig*` | `bitbake/lib/bb/data.py`: `build_dependencies`, `generate_dependencies`, `generate_dependency_hash`; `siggen.py`: `dump_sigtask`, `calc_basehash` | the parsers of texts (an input), SHA256 (a parameter), the JSON files |
| `Bb/TaskHash*` | `bitbake/lib/bb/siggen.py`: `prep_taskhash`, `get_taskhash`, `dump_sigtask`, `calc_taskhash`; the loop of `runqueue.py`; `meta/lib/oe/sstatesig.py`: `sstate_rundepfilter`, locked signatures | hash equivalence, checksums of files (inputs), SHA256 (a parameter), messages about locks |
| `Meta/SsName*` | `meta/classes-global/sstate.bbclass`: generate_sstatefn, SSTATE_PKGNAME, the names in sstate_checkhashes, setscene_depvalid | regular expressions of SSTATE_EXCLUDEDEPS_SYSROOT (a parameter) |
| `Meta/SsPkg*` | `meta/classes-global/sstate.bbclass`: sstate_create_package, opening an archive to unpack it | tar and zstd (a list of bytes), signatures, touch |
| `Meta/SsInst*` | `meta/classes-global/sstate.bbclass`: sstate_install, sstate_clean_manifest; `meta/lib/oe/path.py`: copyhardlinktree | hooks, fixmepath, the index of manifests, locks (Isar's tasks have none), links in directories of paths; tar and cp as observed of GNU tar 1.35 and cp 9.4 |
| `Meta/SsPrune*` | `meta/classes-global/sstate.bbclass`: the index in sstate_install, sstate_clean, sstate_eventhandler_reachablestamps; names in `meta/conf/bitbake.conf`, `image.bbclass`, `initramfs.bbclass` | hashes in names of stamps, working directories, lines without three words, special characters of glob |
| `Bb/Expand*` | data_smart.py: expandWithRefs, var_sub, the cache of getVarFlag, and how setVar, delVar and setVarFlag clear it | Python expressions, values that are not texts, operators, overrides, flags |
| `Meta/DebSrc*`, `Meta/DebCache*`, `Meta/DebRepo*` | deb-dl-dir.bbclass: source list, source download, import and export; repository.bbclass: adding, removing, looking up packages; dpkg-base.bbclass: do_deploy_deb, deb_clean; base-apt.bb: populate_base_apt | apt, reprepro (assumptions in the headers of the models), source packages in repositories, locks |
| `Bb/Prov*` | providers.py: choice of versions and providers | messages; `getRuntimeProviders`, `buildWorldTargetList`; epochs that are not numbers |
| `Bb/Resolve*` | taskdata.py: adding targets, resolving, failing | messages, `allowincomplete`, multiconfig dependencies, dependencies between tasks of a recipe (see `Bb/RunQueue*`) |
| `Meta/Schroot*` | sbuild.bbclass: configurations and mounts; tasks that use them | schroot and sbuild themselves; other files of the profile |
| `Meta/SbuildConf*` | sbuild.bbclass: `sbuild_export`, `sbuild_add_env_filter`; dpkg.bbclass: the environment loop of `dpkg_runbuild` | sed and grep beyond the parameters; warnings |
| `Meta/LocalApt*` | dpkg-base.bbclass: `do_local_isarapt` with deploying and cleaning | what reprepro does (assumption) |
| `Bb/Conf*` | ConfHandler.py: the regular expressions, `feeder`, the loop of `handle` | line numbers, `confFilters`, evaluation of the statements |
| `Bb/BB*` | BBHandler.py: the regular expressions, `feeder`, `get_statements`, the reset in `handle` | line numbers, warnings, the cache of statements, evaluation |
| `Bb/Tasks*` | build.py: `addtask`, `deltask`; taskdata.py: dependencies within a recipe | expansion of names, other flags |
| `Bb/Eval*` | `bitbake/lib/bb/parse/parse_py/BBHandler.py` `inherit`, `handle`, `ConfHandler.py` `include`, `ast.py` `StatementGroup.eval` | Names are expanded and looked up; statements are numbers; no `inherit_defer`, no cache of statements. |
| `Bb/Virt*` | `bitbake/lib/bb/cache.py` `virtualfn2realfn`, `realfn2virtual`, `variant2virtual` | Complete. |
| `Bb/Save*` | `bitbake/lib/bb/cache.py` `SiggenRecipeInfo._save`, `_restore` | Pickling is taken as the identity; `store` is left out. |
| `Bb/Cache*` | `bitbake/lib/bb/cache.py` `cacheValid`, `cacheValidUpdate`, `remove`, what `parse` stores; `parse/__init__.py` `mark_dependency` | What reading a recipe does is any tree of looks at files that are marked as dependencies; other inputs of a recipe are not modelled. Times tell of changes. |
| `Meta/Patch*` | `meta/lib/oe/patch.py` `patch_path`, `src_patches`, `should_apply`, `PatchTree`, `QuiltTree`, `UserResolver`; `patch.bbclass` `patch_do_patch` | What a patch does to a tree is a parameter, and so is what is done in a terminal. `quilt push` and `quilt pop` are as documented. One directory of patches; `GitApplyTree` is not modelled. |
| `Bb/Event*` | `bitbake/lib/bb/event.py` `register`, `remove`, `fire_class_handlers`, `set_class_handlers`; where `finalize` and `parseConfigurationFiles` use them | The code of handlers is any; handlers with syntax errors, filters and user interfaces are not modelled. |
| `Bb/Names*` | `bitbake/lib/bb/parse/__init__.py` `vars_from_file`; `PN`, `PV`, `PR` in `bitbake.conf` | - |
| `Bb/Variant*` | `bitbake/lib/bb/parse/ast.py` `multi_finalize`, `_create_variants` | What classes and `finalize` do is a parameter; appended files and deferred classes come before. |
| `Bb/Pipe*` | `bitbake/bin/bitbake-worker` `runQueueWorkerPipe`, `handle_item`, `serve`, `process_waitpid`, `worker_flush`; `bitbake/lib/bb/runqueue.py` `runQueuePipe.read`, `send_pickled_data` | `pickle` is a parameter of which is assumed that data can be read and proper parts of it are said to be truncated; signals, the end of the worker and what handlers do with the data are not modelled; printed text is written only when a task starts. |
| `Meta/Changelog*` | `debianize.bbclass`: `deb_add_changelog`; `base.bbclass`: `deb_list_beautify` | `dpkg-parsechangelog` and `date` (a changelog is a list of entries), characters that mean something to `sed`, a copy of `changelog.orig` that was stopped |
| `Meta/Events*` | `isar-events.bbclass`: all handlers | files in use when unmounting, characters other than backslashes that mean something to the shell, the UUID of the build |
| `Meta/Container*` | `container_fetcher.py`: `urldata_init`, `unpack`; `container-loader.bbclass`; `container-loader.sh.tmpl` | `skopeo` and the download, the engine (it has a set of names), a failure of `pzstd` in the pipe |
| `Meta/RootfsFiles*` | `rootfs-add-files.bbclass`; `image-locales-extension.bbclass`: `get_locale_gen`, `get_nopurge` | directories, two names of one file, commands that are run in the image |
| `Meta/Expand*` | expand-last-partition.sh and its service: name of the disk, both expressions on the table, order of effects | What `sfdisk` does with the table, failures of commands, unknown file systems, the search for the device below device mappers |
| `Meta/Installer*` | handle-config.sh, sys_discover_target_devices, the flow of deploy-image-wic.sh, the lock | dialogs, the countdown, the progress, versions of bmaptool, globbing of values |
| `Bb/Emit*` | data.py emit_var, emit_func | functions of bash in the environment, bodies of functions, the parser of shell code |
| `Bb/TaskRun*` | build.py _exec_task, exec_task, readfifo; bitbake-worker fork_off_task (environment, exit code) | logs, nice levels, directories and locks of functions, network, profiles |
| `Bb/Stamp*` | build.py make_stamp, clean_stamp, find_stale_stamps; siggen.py stampfile | question marks and brackets in patterns; what a run does |
| `Bb/Pr*` | `prserv/db.py` (tables with and without history, imports, exports), `prserv/serv.py` (when changes are committed) | SQL and sqlite (assumed to do what the statements say, one after the other), the network, the upstream server |
| `Bb/Hash*` | `hashserv/server.py` (report, report-equiv, gc-mark, gc-sweep, clean-unused, remove), `hashserv/sqlite.py` (tables, statements) | SQL and sqlite, the network, streams and chunks, statistics, `sqlalchemy.py` |
| `Bb/HashUser*` | `hashserv/server.py` (permissions, handlers of users, connections) | the hash of tokens (a parameter), the delays, `@none` (taken out of what is given) |
| `Bb/Collect*` | `cooker.py` (CookerCollectFiles) | the matching of regular expressions (parameters), `BBFILES_PRIORITIZED`, the list of searched directories, `get_bbfiles` for an empty `BBFILES` |
| `Bb/Chunk*` | `asyncrpc/connection.py` (chunkify, StreamConnection) | JSON (a parameter says what announces pieces), timeouts, web sockets |
| `Bb/DiskMon*` | `monitordisk.py` | names of devices, log texts, the event with the usage of all disks; `realpath` and `statvfs` are parameters |
| `Bb/Checksum*` | `checksum.py`, `cache.py:MultiProcessCache`, `fetch2/__init__.py:get_checksum_file_list` | locks (each step is one under its lock), `md5` is a parameter; the sort of the list, patterns with `*` |
| `Wic/Prep*` | `plugins/source/rootfs.py`, `misc.py:exec_native_cmd`, `oe/path.py:copyhardlinktree` | owners (`pseudo`), what is in an archive is a parameter, the shell only cuts at white space |
| `Meta/Wks*` | `imagetypes_wic.bbclass` (file, template, variables), `template.bbclass:do_transform_template`, `misc.py:BitbakeVars`, `bb/utils.py:which` | `bitbake -e`, relative directories in BBPATH, a colon in COREBASE; `envsubst` is modelled after its documentation |
| `Wic/Boot*` | `bootimg-partition.py` (list of files, copying, configuration) | `configfile`, the making of the file system, letters outside ASCII, white space in the work directory; `install` and patterns are parameters or modelled after their documentation |
| `Bb/Layers*` | `utils.py:edit_metadata`, `edit_bblayers_conf`, `bblayers/action.py` (add and remove) | other variables and callbacks, `edit_cb`, the check that the layer can be parsed; `fnmatch` is modelled after its documentation, `abspath` and `expanduser` are parameters |
| `Bb/Unpack*` | `fetch2/__init__.py:FetchMethod.unpack`, `Fetch.unpack`, `fetch2/local.py`, `do_unpack`, `dpkg-prebuilt.bbclass:ensure_unpack_false` | links, empty directories and modes, the programs (parameters), `extract` of an `.rpm` in turn, the unpack tracer, fetchers with their own unpack |
| `Meta/Epoch*` | `oe/reproducible.py`, `create_source_date_epoch_stamp`, `get_source_date_epoch_value`, the last command of `do_rootfs_finalize` | `get_source_date_epoch_from_known_files` (never called), git and the file system (parameters), fractions of seconds, messages |
| `Meta/Outhash*` | `OEOuthashBasic` in `oe/sstatesig.py` | SHA-256, `fnmatch`, `re.sub` (parameters), names that are not UTF-8, files that change while they are read |
| `Meta/Custom*` | `customization-base`, `dpkg-customization`, `image-customizations` classes: names and variants | `FILESEXTRAPATHS`, `OVERRIDES` of variants, how bitbake expands variables (C118) |
| `Bb/Git*` | bitbake/lib/bb/fetch2/git.py: branches, clone names, `need_update`, `download`, `unpack`, `_contains_ref`, `_latest_revision` | commands of git by their effect on references and commits; no shallow clones, tarballs, LFS, subpath |
| `Meta/Sdk*` | meta/classes-recipe/sdk.bbclass: relative links in `sdkchroot_finalize`; relocate-sdk.sh: interpreters | names without white space; brackets of patterns without ranges; no rpath, no compiler wrapper |
| `Meta/OsRelease*` | meta/classes-recipe/image-postproc-extension.bbclass: `update_etc_os_release`, `image_postprocess_mark` | values without characters that are special to the shell; the file is a text (that it may be a link is not modelled) |
| `Bb/Parser*` | cooker.py: `Parser.realrun`, `CookerParser.__init__`, `start`, `load_cached`, `parse_generator`, `parse_next` (2039-2290) | Events, profiles, caches and `shutdown`; a kill within a write to the pipe or with its lock held; the feeder thread moves one result at a time. |
| `Bb/DiffSig*` | siggen.py: `compare_sigfiles` with `dict_diff`, `file_checksums_diff` (974-1201) | Colours, word and line diffs, the text of lines; records without run time fields; renamed fields. |
| `Meta/Kernel*` | linux-kernel.bbclass: `config_fragments`, `get_kernel_config_fragments`, the copying in `dpkg_configure_kernel` (216-227, 289-323); update-u-boot-script (21-85) | Decoding of URLs (see `Bb/Url*`); the choice of the newest kernel; commands for addresses; variables of U-Boot in overlays. |
| `Meta/HardCopy*` | oe/path.py: `copytree`, `copyhardlinktree` (88-137) | Owners, modes, times, extended attributes; sources that are not directories; what tar and cp do when a directory meets a file (a failure here). |
| `Meta/Cross*` | crossvars.bbclass (11-43), compat.bbclass (35-37), sbuild-chroot recipes, dpkg-base.bbclass: `isar_deb_build_profiles` | Packages of the chroots that are no compilers; what the compilers' packages contain. |
| `Meta/Dracut*` | initrd-dracut.bbclass: `extend_dracut_cmdline` (25-54); rootfs.bbclass: `initramfs_generator_cmdline`, `rootfs_generate_initramfs` (653-669) | Quotes and other special characters in the values; options of dracut that are not used here; update-initramfs; that dracut stops or writes elsewhere is not taken into the loop over the kernels. |
| `Bb/Server*` | command.py: `Command.runCommand` (asynchronous part), `runAsyncCommand`, `finishAsyncCommand`; process.py: `register_idle_function`, `_idle_check`, `set_async_cmd`, `clear_async_cmd`, `idle_thread_internal` | Synchronous commands; the heartbeat; waiting times; how long functions take; the locks are taken to work. |
| `Bb/Clients*` | process.py: `ProcessServer.main` (connection loop), `disconnect_client`, end of the idle thread in `idle_commands` | XMLRPC; the reading of the timeout from the configuration; shutdown after the loop. |
| `Bb/Xmlrpc*` | command.py: `Command.runCommand` (choice), the table of commands; xmlrpcserver.py: `do_POST`, `addClient`, `removeClient`, `terminateServer` | What commands do, exceptions, event handlers. |
| `Meta/Chroot*` | chroot-setup.sh; its calls in rootfs.bbclass `rootfs_prepare` and image.bbclass `do_rootfs_finalize` | `check_target`; the rest of `do_rootfs_finalize`; dpkg and dpkg-divert are assumptions. |
| `Bb/HashClient*` | asyncrpc/client.py `connect`, `_send_wrapper`, `invoke`; hashserv/client.py `setup_connection`, `send_stream`, `invoke`, `_set_mode`; the dispatch of asyncrpc/serv.py and hashserv/server.py `_stream_handler` | User names, errors of requests, long messages; what is done with a request that is taken as a line is one answer. |
| `Bb/UiHelper*` | ui/uihelper.py `BBUIHelper.eventHandler` | Numbers of tasks, times, rates, titles. |
| `Bb/UiQueue*` | server/process.py `BBUIEventQueue.getEvent`, `waitEvent`, `queue_event` | Reading from the pipe, `close`; the time-out of the lock. |
| `Meta/Essential*` | essential.bbclass | How the lists are read from variables. |
| `Meta/TarImage*` | imagetypes.bbclass `IMAGE_CMD:tar`, sdk.bbclass `TAR_TRANSFORM` | Other file systems below the root file system; characters that mean something to sed; tar is an assumption. |
| `Bb/ClientPool*` | asyncrpc/client.py: `ClientPool` (241-312); hashserv/client.py: `_run_key_tasks` (295-311); siggen.py: `get_unihashes` (737-764) | asyncio: steps between two waits are atomic, `Condition.notify` wakes the first that waits; closing of the pool; what happens in a connection (see `Bb/HashClient*`) |
| `Meta/DracutMod*` | dracut-module.bbclass: `replace_marker_with_file_content`, `do_add_additional_dracut_configuration`, name of the module | the regular expression is described on lines; other line ends than line feeds; a write that is interrupted; the template engine |
| `Bb/MoveFile*` | utils.py: `movefile`, `copyfile` (769-940) | owners, modes, special files, sources that cannot be read, missing directories; that `rename` is atomic is assumed |
| `Wic/RawCopy*` | wic/plugins/source/rawcopy.py | directories in names, labels, cleaning of the work directory; the programs that unpack are a parameter |
| `Bb/Env*` | utils.py: environment (587-679); main.py: 447 and 519-521; cookerdata.py: 232-248; data.py: `inheritFromOS`; cooker.py: `updateConfigOpts` (environment) | renamed variables, options, BB_ORIGENV, failures of parsing, remote servers |
| `Meta/Hook*` | initramfs-hook.bbclass | modes, templates, names of hooks with a slash; the directories of initramfs-tools are from its manual page |
| `Bb/Guard*` | utils.py: `_check_unsafe_delete_path`, `remove` with `recurse`, `prunedir` (698-742) | patterns in names are a parameter, symbolic links, special characters other than point and plus sign in HOME |
| `Meta/Autoload*` | linux-module.bbclass: `AUTOLOAD` (81-89) with its postinst; initramfs.bbclass: `do_validate_rootfs_packages` (40-53) | `depmod` is a parameter; names that are special for the shell; dpkg runs postinst whenever it configures the package |
| `Meta/ContainerImg*` | imagetypes_container.bbclass: `do_containerize` (33-79), the tag in `convert_container` | umoci and skopeo (from their documentation), configuration of images, owners and modes |
| `Meta/Sbom*` | sbom.bbclass: `generate_document_uuid`, `sbom_doc_uuid` (29-43) | `uuid.UUID` of Python (from its source), the tool that writes the document |
| `Bb/Search*` | utils.py: `which` (959-990), `get_file_layer` (1543-1582), `environment` (1784-1797), `is_local_uid` (1799-1813), `path_is_descendant` (1834-1857); bitbake-worker:275-280 | `re`, `fnmatch`, `os.stat` (parameters), `disable_network` itself |
| `Meta/Archive*` | imagetypes.bbclass:8-14, squashfs.bbclass:26-49, dpkg-raw.bbclass:25-39 | GNU tar (a transformation also applies to the targets of links), mksquashfs (asterisks do not match a leading point), dh_install: after their documentation; mounted file systems, wildcards in names |
| `Bb/Revs*` | persist_data.py:32-239, fetch2/__init__.py: `fetcher_init` (496-518, without the checksum cache and the methods), `fetcher_compare_revisions`, `latest_revision` | SQLite (an attempt is atomic or finds a lock), the server, `get_by_pattern` |
| `Bb/Addr*` | asyncrpc/client.py:19-40 and 69-84, asyncrpc/serv.py:165-169, 186-200, 240-244 | the connection itself; what else `int` of Python accepts as a port |
| `Meta/Types*` | oe/data.py:10-25, oe/maketype.py:29-53, oe/types.py:12-50 and 108-128 | types regex, integer, float, path; separators with several characters; letters beyond ASCII |
| `Bb/RefVars*` | bb/utils.py:1108-1142 | finding the direct references in an expression; values that cannot be expanded |
| `Meta/Ova*` | classes-recipe/imagetypes_vm.bbclass:15-99 | what is in the template, random numbers, commands that fail |
| `Meta/Stats*` | lib/buildstats.py: `_reduce_pressure`, `_reduce_stat`, `_diskstats_is_relevant_line`, the sums of `_reduce_diskstats`, `sample` (the first part) | `_reduce_meminfo`, rates per time, rounding, disk monitor events, names of RAID controllers (cciss) |
| `Meta/Term*` | oe/terminal.py:33-57, 203-257, oe/classutils.py:41-44, terminal.bbclass:88-111 | commands and versions of the single terminals, the environment, waiting for the end |
| `Meta/Launch*` | oe/utils.py:270-329 | texts of the errors, pipes that are full; two equal items end at the same time |
| `Meta/OeUtils*` | oe/utils.py:112-131, 174-218, 239-251 | what else Python takes for a number; texts with more than one `%` |
| `Scripts/LockRun*` | scripts/lockrun.py:33-44 | options, scripts with more than a list of commands; the lock itself is in `Bb/Lock*` |
| `Py/*` | strings, dictionaries, `posixpath` | part of the trusted base |

Everything else in `/repo` is not modelled: the rest of bitbake (fetchers, run queue, server), the
recipes, the shell parts of the classes, the test suite.

## What the log of wrong programs shows

`seeded/LOG.jsonl` has one line per edit of the model. After an edit the project is built, and `failed`
names the declarations in which the build first stopped; modules that import those are then not
checked. `stopped_in` says what they are. Of 2500 edits, 1363 stopped in a theorem of the manifest, 298
in a concrete example beside one, 792 only in a helper lemma, and 47 in nothing.

The 792 that stopped in a helper lemma are weaker evidence than the others: they show that the proof no
longer goes through, not that the theorem it serves is false of the edited program. A theorem could be
too weak to exclude such an edit and the log would not show it. To narrow this down, the lemmas that
broke are assumed in a scratch copy and the build goes on (`audit` in the log). For 177 of them a theorem of the
manifest or an example then fails. For 183 everything builds, which decides nothing, because a lemma that is
false of the edited program proves anything; 0 of these have been reviewed by hand (`review`). 432 have not been
audited.

## Disagreements between the code and the properties

Each has a theorem with a concrete witness in the model; the full statement stays in
`properties.jsonl` and a theorem `..._partial` holds under the stated restriction.

* **C05**: Distinctness and gpt hold in full. On msdos the agreement is false with explicit --type logical (numbers_disagree_logical); proved for all other lists.
* **C06**: Exactly one extended partition, at the right start, in all cases. Its end is wrong for three kinds of .wks files (witnesses proved); exact containment is proved for the others.
* **C09**: Holds in full for SEEK_DATA/SEEK_HOLE. For FIEMAP it holds when at least one block is mapped; for an area without mapped blocks the generator raises (RuntimeError from StopIteration), which is proved.
* **C100**: The name is searched in the text of the list, not in its words: with Isar's list the flags dirs and export do not count either (proved).
* **C105**: If no two dependencies have the same multiconfig, recipe and task name, and the taint file is unchanged and does not contain 'nostamp:'. The record keeps hashes by recipe and task name, so that two versions of one recipe as dependencies give a mismatch (proved of the model; a build that has both is rare).
* **C107**: Only for builds without unlocked recipes. The name of an unlocked recipe is searched in the names of dependencies, so that unlocking x unlocks what depends on lib32x; and a task that is visited before another task unlocks its recipe stays locked, so that the order of a set decides (both proved).
* **C109**: For all tasks but fetch, unpack, patch and preconfigure: these are looked for under the name without the architecture, under which only populate_lic writes (proved). Isar has no archives of these tasks.
* **C112**: If ln does not fail and nothing is removed. The command is followed by || true, so that where hard links fail the task succeeds without an archive (proved). A task that is killed leaves its temporary file for ever (proved).
* **C113**: One task at a time. Not for files where the task has a directory, and not for links: these are replaced (proved). Names in SSTATE_ALLOW_OVERLAP_FILES allow everything that begins with them, and two tasks that check before either copies overwrite each other, because Isar's tasks have no lock (both proved). For trees in whose names the input directory does not occur again; otherwise a file is overwritten unseen (proved).
* **C115**: With a complete manifest for all other paths. If the machine stops while the manifest is written, only for paths with which no path of the task begins: a line that is cut off can name the file of another recipe, which is then removed (proved).
* **C116**: For histories in which each build parses the recipes of its tasks, with one version of each, and in which parsing is not interrupted; for recipes other than initial RAM disks whose names have no dots, with one task that has a manifest. Each of these is needed: machines share the manifest of an initial RAM disk, and building it for one takes it from the other (proved); the same happens with names with dots, if pruning is killed, with two tasks, and with two versions in one build (all proved).
* **C117**: Under the conditions of C116. Not for images: their manifests are in a directory that the handler does not read, and are never removed (proved). Stamps in preserve-stamps are removed all the same (proved).
* **C12**: False for --option=value and for abbreviations (explicit_ignored); proved for options written as a word of their own and for absent options.
* **C120**: Circles are errors, and texts with a meaning are expanded in finitely many passes. It is false for all texts: with one variable whose value has parts of references, a text is expanded for ever (expansion_endless).
* **C121**: For histories without reads with noweakdefault: such a read of a variable that has only a weak default puts None in the cache, and the variable has no value until something is written (default_lost). Without overrides.
* **C123**: Complete only if apt writes the .dsc file after the others; otherwise a download that is stopped leaves an incomplete source that is never completed (stopped_incomplete). Sources that apt does not know are left out without a warning (unknown_silent).
* **C125**: Proved for the commands as they are meant. It is false of the code: the variable with the list of local packages is not exported to the quoted script, so that every local package is exported (local_exported, old_local_package). Also, a name that occurs in the name of another local package hides it (name_inside).
* **C126**: For recipes whose work directory has one file for each package, and if there is no newer version for another architecture. Otherwise the old package stays (leftover_wins, all_stays). Packages that a recipe does not build any more stay as well (dropped_stays). What reprepro does is an assumption.
* **C127**: The repository keeps one version for each architecture: an older version that a build has used is not in it (only_newest). Without source packages. What reprepro does is an assumption.
* **C128**: All but the last sentence: of several files of one layer that fit a version with % at its end, the one with the lowest DEFAULT_PREFERENCE is used (wildcard_lowest). A version with a revision is never found (revision_not_found).
* **C129**: If all required versions are found. Otherwise recipes that provide the same are not offered either (required_hides_others).
* **C130**: It is false that a conflict is always reported: the loop removes elements from the list over which it goes and skips some (conflict_missed).
* **C131**: With -k for DEPENDS and what packages need; without -k if every name has at most one recipe, also for the dependencies of tasks. Otherwise the dependency of a task on something that has failed before is lost (task_dependency_lost), and the error about what was asked for may be lost (error_swallowed).
* **C132**: Exact with at most one recipe for each name and no dependencies of single tasks. In general a second recipe for a name may not be used (alternative_lost), so that only one direction holds (hopeless_dropped), and the cause is a chain through some of the alternatives (dropped_has_cause).
* **C134**: If earlier runs with the same name have cleaned up. After a run that was stopped, a process with the same number finds its directory, and cp -rf leaves the old fstab in it (leftover_mounts).
* **C135**: For errors after the cleanup has been arranged. If the session cannot be started, or not be ended, the configuration is left (session_fails_leaves).
* **C136**: For values without quotes, backslashes and line breaks, that do not begin with ^. Otherwise the file is broken or the value lost (quote_breaks, caret_lost). A variable that also is in the reference environment is lost if its new value is the beginning of the old one (shorter_value_lost).
* **C139**: A file may end within a continued line (end_continued). A comment between continued lines is not rejected in .conf files: it becomes part of the value (comment_in_value). A lone backslash before a blank line is an error without a place (backslash_crashes).
* **C140**: A function that is not closed and has no line is not seen while reading (empty_unclosed), but after the evaluation, if nothing was included in between. A variable that is called like a statement, such as inherit, can only be set without a space (inherit_variable).
* **C141**: Unless a file could not be read to its end within a definition in Python: then the next file has that definition (python_leaks).
* **C142**: For names that do not have the words before and after in them; otherwise the names are cut (names_are_cut). Of several lists of the same kind, only the last is taken (lists_are_lost), with a warning.
* **C143**: If the tasks that were to run after a deleted task existed when it was deleted. Otherwise the order that was taken back is still there when both are added again (deleted_comes_back).
* **C144**: Files that include each other are read until Python gives up (circle_deep); only a file that includes itself is skipped. A function that is not closed and has no line is lost if its file includes another one (unclosed_lost).
* **C145**: For variants, the path of the file must have no colon (colon_lost).
* **C147**: If the times of files tell of every change; they are whole seconds (same_second). Of the files whose checksums count, only those of the recipe itself are checked, not those of its variants (variant_files).
* **C149**: If there are patches and no terminal is opened. Without any patch, those of an earlier run stay (old_stay); a patch that does not apply is forgotten if a terminal is opened for it and left (terminal_left).
* **C150**: If a patch was applied when it ended, or none was in the series. Otherwise those that are in the series are applied first, and as many of the new ones are not (left_in_series, still_tried, old_applied).
* **C151**: If handlers with one name are always for the same events. Otherwise a handler is called for the events of an earlier one, too (mask_stays, mask_reread); the names in configurations may be the same for different handlers (name_taken).
* **C152**: The error comes only the first time that a process asks (accepted_later).
* **C154**: If the text of the tags is not in the data and no task is stopped while it writes an event. An event with the text of a tag in it makes the worker fail (event_opening, event_closing); an item with the text of its closing tag in it is cut there although its length was sent (item_cut); when a task is stopped while it writes, a warning is printed to the pipe of the cooker, which then reads nothing any more (stopped_task).
* **C155**: Without interruption it holds always (first_right, again_right). When it was stopped it holds if the sources have a changelog and the recipe does not bring one that begins with the version. Otherwise the entry that was written is taken for the changelog of the sources (entry_taken), or the mark in the version is not replaced (mark_stays). The changelog of newer sources in the same directory is not used (newer_sources).
* **C158**: For names without white space and backslashes, when the work directory is named only in places of mounts. Something that is mounted elsewhere is unmounted if its device or its options name the work directory (elsewhere_too); a place with a space in its name stays mounted (space_stays).
* **C159**: For images from one host with no dots in their paths, and for tags without an underscore. Names that differ only in dots for slashes have the same file (same_file), and so have a_b with tag c and a with tag b_c in DL_DIR (same_download).
* **C161**: If all entries have a source that is there, have different destinations, and the host has no file with the name of a destination. Files after an entry without a source are not added (later_not_added); a file of the host with the name of the destination is removed (host_removed), or the function fails (second_fails); a file that is there is not emptied (not_emptied).
* **C163**: For disks whose names do not end with a p; /dev/sdp2 is on /dev/sd for the script (disk_p). A card without partitions is taken for a partition (whole_disk).
* **C164**: If no name of a partition has last-lba or a text like a size in it; otherwise a partition is removed (partition_lost) or the last one is renamed and does not grow (name_changed).
* **C165**: If boots are interrupted only before the table is written, or if systemd grows the file system, in which case partition and file system are grown in the end, whatever was interrupted. Otherwise the next boot finds a full disk and disables the service (never_grown); the first block of a disk with a GPT may be lost for good (mbr_lost).
* **C166**: If the root file system is on the disk, on a partition of it, or on something made directly of these. With LVM on an encrypted partition the disk is offered (live_disk_offered).
* **C167**: Any word on the kernel command line that begins with installer.target.overwrite counts as OVERWRITE, even =ABORT (abort_overwrites).
* **C168**: If devices are only given on the kernel command line and the whole value is not the name of a device. If the boot device is given alone it is written to (boot_device_written).
* **C169**: If no other installer is running; if one is, a success is told whatever it does (told_success). The status is 0 also if the user says no (cancel_status).
* **C17**: False for signatures: they are deleted together with their archives whatever --max-sig-age says (clean_deletes_young_signature). clean_exact describes the result in all cases.
* **C170**: If the system runs from a partition of a disk like sda, for disks whose names do not begin like that one. With the system on sda neither sdaa nor a card with a number of two digits is offered (others_missing), nor is any NVMe disk if the system is made of a partition of one (nvme_missing).
* **C171**: For values without backquotes, in which no backslash stands before a backslash, a quote, a dollar or the end, and names of letters, digits and underscores. Otherwise the value changes (backslash_lost), parts of it are run (quote_ends, expanded), or it takes in the next variable (not_ended); a variable with a dash is not exported (dash).
* **C173**: What a success and a file mean holds always. That exactly one of success and failure is told, as the process ends, holds if handlers, files and fakeroot do not fail; otherwise a task may be told to have succeeded and end with 1 (success_told), have its file and end with 1 (failed_with_file), or fail without a word (not_told).
* **C174**: If no run is broken off, and names are as usual. After a run that was broken off the task counts as run for the hash of the run before (broken_counts), so that going back to it does not run it again. With sigdata in the path no file is removed (sigdata_path); with the name of the task in the path files of the setscene task stay (task_path); a setscene task leaves the file of the task (scene_keeps).
* **C175**: The environment of a task: proved. That of the worker is restored if no name is given twice (worker_not_restored); a setting without = kills the worker (setting_none).
* **C176**: Unless a message for debugging has no text: it is an exception, and messages after it are lost (debug_lost).
* **C177**: Revisions never go back through any requests, imports and orderly restarts. Different contents have different ones if nothing is imported: two imports may have the same value (imported_same). A server that is read only gives the same revision to all new contents (read_only_same). Crashes: see C179.
* **C178**: Proved for servers that are not read only, with orderly restarts. Crashes: see C179.
* **C179**: False: what is changed is written only at an exception, a stop or a signal (the call that should write it is in the else of a try that returns), so that a killed server forgets all revisions and gives them to other contents (forgotten, nothing_in_file). What survives an orderly stop: proved.
* **C180**: Proved, but for a report of a known output whose task has no entry any more: its answer is not kept with a python for which an ignored row is not new (not_kept).
* **C181**: If a task gives the same at all times and requests are served one after the other; that tasks with the same hash give the same holds in any interleaving. A task that gives now this and now that makes two others equivalent that never gave the same (chain). With an upstream server two reports at the same time get different hashes (race).
* **C182**: What is marked or new is kept, and only with the right mark is anything removed. The age is added instead of subtracted, so that all outputs that are not used are removed (young_removed). A condition on a method and an output removes the hashes of all tasks of the method (removed_too_much). With the name of an earlier mark nothing of what was kept then is removed (old_mark); a task that is reported again in between is removed (used_removed).
* **C183**: Proved, but a connection goes on with the permissions it had when it was opened, also if the user lost them or was removed (revoked).
* **C184**: The innermost layer decides if patterns are literal paths; patterns are sorted by their text, so a longer one need not come first (longest_not_first). Files are in order of priorities if each entry of BBFILES has only files of its own priority; an entry for several layers puts the file of a lower layer above (overlay_wrong). The order on disk does not matter but for entries that are directories (walk_order).
* **C185**: Given that a bar joins regular expressions, and unless a word is a single bar: with another mask it masks every file (bar_masks_all).
* **C186**: To which recipes: proved for names without .bb before the %; what is after the % is not looked at (after_percent). The order: as for C184.
* **C187**: If no file is in two layers. A layer in another one that has only additions is warned about (warned_though_used).
* **C188**: Unless there is white space where a long message is cut: a line is read without the white space at its end, so that a space in a long message is lost (space_lost), and a piece of white space only ends the message (blank_ends). Proved with that excluded.
* **C189**: On file systems that always count inodes: one answer of -1 ends the watch over them (inodes_not_watched). Warnings as long as there is some space left: with none the same warning comes at each check (warned_for_ever).
* **C19**: No marker is left and unrequested items are kept in order (full). A requested item is removed only if it occurs at most as often as it is requested, counting implied items; removal_of_repeated shows that it stays otherwise.
* **C190**: Proved, but for an entry without a directory, which should be an error: the working directory is watched (no_directory).
* **C191**: If a changed file has a new time and does not change while a process counts on it. Times are whole seconds: a change within the same second is never noticed (same_second). A process killed while it writes its table ends the cache for ever, though checksums stay right (cut_for_ever).
* **C192**: For paths without a colon: a path with one is cut there (colon_cut).
* **C193**: If the path of the directory is not found again within it: then what comes after counts no more (place_lost). A directory that is a link does not count (link_not_counted).
* **C194**: Excluded: if there is no white space in the path and no link on the way. A path with white space is cut there, so that what is to be excluded stays (space_stays); of a link what it points to is removed (link_stays).
* **C195**: A path counts as inside if its text begins with that of the copy: a directory with a longer name beside it, such as the copy of another partition, is changed (beside, beside_content). A path with white space is cut for rm (space_outside). Proved for all else.
* **C196**: For values of one line without a quote at their ends. A quote at the end is lost (quote_lost); the second line of a value may be read as another variable (second_line). The answers to all histories are proved in full.
* **C198**: For names a shell knows and if no variable without a value is in the environment: then that one is taken (from_outside). A reference with another name stays (not_for_shell); $NAME without braces is replaced too (without_braces).
* **C199**: For paths of letters, digits and _-./*: at another character, as in rpi+4.dtb, a name is cut into two (other_character). Files of a pattern with the same name get the same place (same_name).
* **C200**: For relative destinations without . and .. of which none is a directory of another one. A destination with a slash at its beginning or with .. leaves the directory, and files of the machine that builds are overwritten (absolute_destination, above_destination).
* **C201**: A kernel in a directory is not found (kernel_in_directory), nor are device trees in another directory than the first one (other_trees). Else proved.
* **C202**: For files of which only the first setting is not +=, in which no line but the settings begins with BBLAYERS, and all lines have a newline. A layer is added to the first setting also if a later one sets all anew (added_in_vain); with a last line without a newline the new setting becomes a part of it (no_newline); a tab before the operator is not known (tab_not_found), and BBLAYERSt is taken for BBLAYERS (other_variable). The command never says that a layer is there already (never_told), and then adds others although the configuration cannot be parsed with them (not_parsed).
* **C203**: For the same files, if no setting has two layers that match, and paths without characters of patterns. A layer listed twice in a setting is removed once (listed_twice); a path with brackets is taken for a pattern (brackets, brackets_other).
* **C204**: For relative paths of names and places none of which is in another one. A file that is no longer in a directory stays in the work directory (stale_file); a directory with an @ in the name is cut there when a file of it is copied (at_sign, at_misplaced). Links and empty directories are not modelled.
* **C205**: For .gz .Z .bz2 .xz .lz without subdir. With .z and .zst the download is emptied before it is read, and nothing is unpacked (download_lost); subdir is not regarded for compressed files (subdir_ignored). What the programs do with the contents is a parameter.
* **C206**: For relative paths and subdirs of names, and other suffixes than .z and .zst; that the programs write only below their directory is assumed. A subdir beside the work directory whose name begins like it is accepted (beside_root), a relative one with .. is not checked (above_root), nor is the path of a local file (dotdot_path).
* **C207**: If there is one repository only, or one at WORKDIR/git or in S, and no file is from before 1970: with two the date depends on the order in which directories are listed (two_repositories), with negative times also (before_1970). An S that is the work directory in another spelling takes the date of the logs (other_spelling). The documented step with known files does not exist (known_files_ignored). Git is a parameter.
* **C209**: If the time that date prints is read by find as the same one; in the hour that is there twice when the clock is put back this is not so (clock_put_back).
* **C21**: A name that carries a variant suffix is kept but gets the suffix a second time as well (variant_name_twice). variant_names_exact describes the result for all lists.
* **C210**: Outside of pseudo (which Isar does not use) and for tasks other than package. Not so if a link leads to an existing directory on one machine only: then the lines come in another order (link_matters).
* **C211**: For names and targets without line breaks, links without > in their paths and no file called fixmepath, outside of pseudo and for tasks other than package. Else two links can have the same text (text_twice) and a file called fixmepath is not looked at (fixme_lost). Permissions of the group and others are not part of the text (group_lost). That the checksum of texts and contents has no collisions is not assumed: the claim is about texts and checksums.
* **C213**: If the name of the image is not a part of CUSTOMIZATION_VARS_PREFIXED (the test is one for a part of a text). If it is, the Debian package has the name of the image appended once more and the image asks for a package that is not there (image_named_like_distro).
* **C215**: False in general: a replaced branch and the fetch of another recipe make a fetched revision unusable (forced_push), as do two repositories with the same clone (two_repositories); with nobranch, a collection of garbage (collected). Proved if the branches of the server only grow and each clone has one repository; with nobranch without collections.
* **C216**: False for a clone with a branch in the place of a branch of the server (a, then a/b): no fetch succeeds until the clone is removed (renamed_branch). Proved for all other clones, partial ones and other files in the place.
* **C217**: False in general: /a.b and /a/b have one clone, as have other servers (same_name). Proved for paths of one server without the characters that are replaced. The full name of a tag gives the checksum of the tag (full_tag).
* **C218**: False in general: an absolute link that goes up from a link leads elsewhere (through_link), a relative link that goes up from the root leaves the SDK (above_root). Proved for links without these. Names with white space are not modelled: the script does not quote them.
* **C219**: False for old places with characters of patterns (pattern_place). Proved for all others.
* **C220**: False for a file without a line feed at its end (no_line_feed); proved for all others. A value that is empty does not remove an old one (empty_keeps).
* **C223**: False for 0 and negative numbers: there is no process, and parsing ends with an error (zero_threads). Proved for all positive numbers.
* **C224**: False when the same files stand in another order, as their order is that of their paths, which are not recorded (moved_layers); proved for records that keep the order, which those of files in directories do (directories_ordered). With recursion the own changes of a task are dropped when a dependency changed too (own_change_hidden); a line is still printed. The collapsed output is modelled but not claimed.
* **C226**: False when the order of the paths changes (moved_layers: two layers that are placed in another order). Proved for places that keep the order.
* **C227**: False: the test of the ending is one for a part of the text .cfg, so names ending in .c, .cf and a dot count too (fragment_iff); a C file among the sources is merged as a fragment (c_file_is_fragment). Proved when no source has such an ending; order, apply=no and completeness are proved for all.
* **C228**: False for absolute names beside the source tree that begin with its name: one test looks for a slash after it and the other does not, so they are listed and not copied (beside_tree_not_copied). Proved for all relative names and for those in the tree; that cp succeeds is assumed.
* **C229**: False: the directory that is set for a relative overlay is kept for absolute ones after it (overlay_lost). The script is right exactly if no absolute one comes after a relative one. U-Boot variables in overlays are not modelled.
* **C231**: False for names of a dot and one character at the top of the source: with hard links their files are left out without an error (tiny_lost), and if there are no other names the copy fails, while it succeeds without hard links (tiny_fails). Proved for all other names; complete_iff and fails_iff say exactly when the copy is complete and when it fails. Clashes of directories with files are taken as failures; owners, modes and times are not modelled.
* **C232**: False with hard links: a program that writes to a file of the copy changes the source (write_changes_source). Proved for all histories that replace and remove files, and for all histories where no links are made.
* **C235**: False: the values are not quoted, so that the second of two drivers becomes the name of the file to be written (second_driver_lost), and if modules are to be found in names of packages and there are none, dracut gets an option without a value (no_module_fails). right_iff says exactly when it is right: each value is empty or one word. How dracut reads its arguments is taken from its manual.
* **C236**: False: files whose names begin with that of the ramdisk are taken too (kept_deployed), and with kernels of both kinds of names the ramdisk of another kernel can be deployed (other_deployed). Proved when kernels are given in the order of their versions and no other name begins with that of the ramdisk of the last. deployed_from: something is deployed, and it never is what an earlier run left in the work directory.
* **C237**: False: if an exception comes while a command that ends at once is being finished, after its event was fired, a second event is fired (finished_twice). Proved for all schedules without such an exception. What commands do is given by the outcome of each call; the heartbeat is not modelled.
* **C240**: False: the client that came last is served first (last_first), so that one may wait for ever while others are served (starved). Proved as long as no more than one waits.
* **C241**: False: a client that was accepted and has not yet told where its events go is dropped if the timeout is over, which counts from when the last client left (dropped), and a client that sends something else than descriptors ends the server for all (junk_ends). Proved: there is no other cause, and none of these while a client is served and sends commands.
* **C242**: False: only synchronous commands are asked whether they change something, so that an observer can start builds (observer_starts), and end the server or remove the client that is there (observer_ends). Proved for synchronous commands. What the commands do is not modelled.
* **C243**: False: the check of the token is switched off (`if 0 and`), so that everyone is treated as the client that was let in (token_ignored, never_refused). Proved: while a client is there and nobody removes it, no other is let in.
* **C244**: False: with merged directories a package that has /usr/sbin/start-stop-daemon is not diverted, runs the real one and is lost at the cleanup (alias_lost); a start-stop-daemon that comes first with a package is removed (late_lost); a policy that was there before is lost since setup and cleanup use different names (policy_lost). Proved for packages that have the names under /sbin. dpkg-divert is modelled from its documentation.
* **C245**: False: if it is interrupted after the diversion of start-stop-daemon is removed and before the script is, the second run removes the real start-stop-daemon (interrupted_lost). Proved for all other places.
* **C246**: False: if the answer comes after the time to wait four times in a row, the error is raised but the connection is kept, and its late answer is taken as the one to the next question, and so on (late_shifts); the callers in siggen.py catch the error and go on, so that a task is given the hash of another. A report may be done twice (done_twice). Proved for all failures but late answers.
* **C247**: False: a report that follows a look-up fails if the connection is lost once (request_lost), since END is sent again on the new connection, which the server closes. Proved: look-ups survive two failures after any history, and three in the normal mode as reports do.
* **C248**: False: if a process number is used again and the end of the first task is told after that of the second, the user interface raises KeyError and stops the build (reused_fails); one that came during the build fails at the next end of a task that was started before (observer_fails). Proved for process numbers that are used again if tasks of the same process end in the order of their starts.
* **C250**: False: images do not wait since the class asks for the task do_install_rootfs, which does not exist (image_does_not_wait); names with -compat and -native that cannot be built are kept, with variants of variants (compat_kept, variant_of_variant). Proved for packages, and for lists without such names.
* **C251**: False: a package on which one of the list depends waits for it unless it is in the list too (circle). Proved if the list is closed.
* **C252**: False: tar applies the change of the name to targets of symbolic links too, so that a link with the word rootfs in its target points somewhere else (link_changed). Proved: exactly these are changed. How tar transforms names is from its documentation.
* **C253**: False: a connection that cannot be made still counts, so that after as many failures as connections are allowed every later call waits for ever, also if the server is back (pool_hangs, pool_dead_forever). Proved for all interleavings: the bound, one task for each connection, no task lost, termination, and that all tasks end as long as there were fewer such failures.
* **C254**: False: the first failure ends the call, which returns nothing for questions that were not answered yet, without an error, and the hash of the task itself is stored for them (results_lost). Proved: answers are never wrong, and complete if no question fails.
* **C255**: False: the end of a here document is indented too, so that it does not end (terminator_lost); a blank line before the marker is repeated before each line, which breaks continued lines (continued_line_split); a file with a line like another marker gets the other file (marker_in_content). Proved for markers without blank lines next to them. The match of the regular expression is described in terms of lines.
* **C256**: False: whenever one file was put in place, the task fails when it is run again, as the marker is gone (again_fails). Proved for the first run after unpacking.
* **C257**: False for a link as destination, which is removed first, so that nothing is there for a while, and for ever if the move fails (link_not_atomic); a link that is moved to itself is lost (link_to_itself); a file with the time 0 is moved but this counts as a failure (time_zero). Proved for regular files: never lost at any point, success means moved, and atomic if the destination is not a link. Owners, modes and special files are not modelled.
* **C258**: False for a link as destination and a link copied to itself, as for moves. Proved for all other cases and all points of a crash.
* **C259**: False: the result of the program that unpacks is not looked at, so that a damaged archive gives a truncated partition without an error (damaged_archive); lines of the same number in a file and in one that it includes share their copy, and the first partition gets the content of the second (same_line). Proved if no program fails, lines with the same file differ in their numbers, and names of unpacked files are not those of copies.
* **C261**: False: a variable that is added to BB_ENV_PASSTHROUGH_ADDITIONS while a server runs makes it parse again, but is not let in (addition_unseen), and the other way round (preserve_unseen). Proved if the variables that decide did not change.
* **C262**: False: a script for panic is left out, and a complete script if there is one of the other kind for the same point, without an error (panic_lost, complete_lost). Proved for all other recipes, with what exactly is installed for any recipe.
* **C263**: False: the words initramfs- and -hook are left out of the name, so that recipes that differ only in them install the same file (clash). Proved for names that have both.
* **C264**: False: names with two slashes at the beginning are not recognised (two_slashes), directories above a home directory outside of /home are not guarded (above_home), HOME is taken for a regular expression and not normalised (home_lost, refused_for_point). Proved for all other names and homes. Symbolic links are not modelled.
* **C265**: False: each upgrade lists the modules once more and removal leaves them (listed_twice); if the last line of the file has no line feed, the first module is appended to it and neither is loaded (line_joined). Proved: how often each module is listed after any history, and that all are listed once the package was configured and the file has complete lines.
* **C266**: False for every package with modules in AUTOLOAD: the lines for them are after depmod and there is no set -e (failure_hidden). Proved for all packages without.
* **C267**: False: any package with the word in its name is reported, and there is an exception for generators other than these two (other_generator). Proved: all that are foreign by the rule in the comment of the class are reported, and only packages with the word in their names.
* **C268**: False: names that begin with a point at the top of the root file system are left out (hidden_lost), and without /tmp the task fails (no_tmp). Proved: what exactly is in the image for any root file system. umoci is described by its documentation.
* **C269**: False for the tag empty, which the task uses and removes (tag_empty). Proved for all other tags.
* **C272**: False for the root, which is not found to be above anything (root_no_ancestor). Proved for all other ancestors if all directories above the path can be seen; a path that is missing is an error.
* **C273**: False: the length of the text of the pattern decides, so an outer layer can win (inner_layer_lost), and recipes are found by the entry of BBFILES and not by their path (entry_hides_layer). Proved: which layer is given for any patterns.
* **C275**: False for users that are not in /etc/passwd (directory_user_keeps_network). Proved: exactly when the network is taken away. What disable_network does in the kernel, and that it may fail without an error, is left out.
* **C276**: False: the targets of symbolic links are changed as well (link_changed). Proved: the root file system is got back if and only if no such target has the text rootfs. Rests on the documented behaviour of tar; mounted file systems are left out.
* **C277**: False: names that begin with a point stay (hidden_stays). Proved: exactly what is in the image. Rests on the matching of mksquashfs, where an asterisk does not match a leading point.
* **C278**: False: a directory debian is lost (debian_lost), names with blanks fail or are mixed up (blank_fails, blank_wrong). Proved for all names without blanks and wildcards.
* **C28**: False if a base type is not needed itself and has two needed conversions (requested_image_deleted: ext4.gz ext4.xz); proved for all others.
* **C280**: False: the exception is taken before the repetition could see it, so one lock makes iterating fail with a TypeError (rows_not_retried). Proved without locks.
* **C281**: False for two processes that look before one has stored (race). Proved: in all interleavings every revision is from the table or the server, and once one is in the table all use it.
* **C282**: Proved without locks. With a lock at the start nothing is saved and all revisions count as changed (locked_at_start), with a lock at the end the comparison fails (locked_at_end).
* **C284**: False for names without a directory: changing to the empty directory fails (plain_name_fails). Proved for all absolute paths that have a directory other than the root.
* **C285**: False for variables that are not set and have a separator: they have one empty item (unset_list). Proved for all other values, for separators with one character.
* **C286**: False for a boolean that is not set, which is an error (boolean_unset). Proved: exactly which values are accepted and what they become, for letters of ASCII.
* **C288**: False for image types other than vmdk: the task succeeds, makes no archive and leaves the one of an earlier build (other_types). Proved for vmdk from any state of the directory.
* **C289**: False when a sample is 0: it counts as no sample, the growth after it is not recorded (zero_forgotten). Proved for all sequences of samples other than 0.
* **C290**: False when the counter for waiting goes back, as the kernel allows (iowait_back). Proved for counters that do not go back; quotients are pairs of whole numbers, rounding is left out.
* **C291**: False for lines with other than 14 fields, which kernels have had since 4.18 (more_fields), and for NVMe and the 27th SCSI disk (nvme). Proved for lines with 14 fields and the names the code knows, without cciss.
* **C292**: False when the clock is set back (clock_back). Proved for all sequences of calls with a clock that does not go back; times are whole milliseconds.
* **C294**: False without a display, as the program is started before the display is looked for, and for terminals that end with an error (twice). Proved when every installed terminal works.
* **C296**: False for processes that are killed and for results that count as false (lost). Proved for all schedules when neither happens.
* **C297**: False for -j without a number and for the long option (other_forms). Proved for the first -j with a number in all lists of options.
* **C30**: Full for do_rootfs_install. do_rootfs_postprocess and do_generate_initramfs mount before their try block: if a mount or the qemu copy fails, or there is no command, everything stays mounted (proved).
* **C300**: False for scripts of several commands: only the last one counts (earlier_failure). Proved: order, lock and release for all scripts, and the code for the last command.
* **C31**: A command runs under the lock exactly if it should, for all failures. After a failing command the function ends with the lock held (lock_kept_on_failure); only the end of the process frees it.
* **C32**: Full for one run of the mount script with any failure. Repeated runs only without /sys/firmware: with it the second run stacks a second tmpfs and unmounting fails (mount_twice_stuck).
* **C33**: False as stated: the check compares text, so a sibling directory whose name begins with that of WORKDIR is accepted (template_outside). Symbolic links are not modelled.
* **C34**: False as stated: prefix siblings of TMPDIR are removed (cleans_outside) and the mount check looks at the path without TMPDIR (mount_not_seen). clean_exact is full for proper lists.
* **C37**: The last clause holds for constraints of an operator and one word; constraints of several words, or two in a row for one name, are misread (proved).
* **C38**: The first clause holds for all histories with keys that do not end with __mutable__. The second holds if each key has values of one kind; a mutable value set over an immutable one or after a deletion is lost, and an immutable value in the original hides a mutable one of the copy (proved).
* **C39**: For a variable that is new, without overrides of its own and whose name holds no operator; overrides of operators with capital letters are not recognised (proved). The removed words are stated after expansion, spaces around them stay.
* **C40**: Values and flags never change. The list of exported variables does: the set is shared and changed in place (proved). Renamed variables are shared as well and not modelled.
* **C43**: With --label and --part-name on gpt, root=PARTLABEL names the label although the partition is named by --part-name (rootdev_wrong_label); the rest is proved.
* **C44**: Limit and contents hold. The protective entry covers sectors 1-34 and overlaps a partition that starts at sector 34 (hybrid_mbr_overlap); disjoint otherwise.
* **C48**: A line whose command word is quoted is parsed and then ignored (quoted_command_ignored); proved for lines without quotes and backslashes.
* **C52**: Proved for at most two options; with three options the location is misread and single-word lines raise (entry_misread).
* **C53**: With snapshots the options are replaced (snapshot_drops_options).
* **C55**: False for dependencies declared for converted types (basetypes_incomplete).
* **C56**: False for names that differ only in - . _ (task_names_collide).
* **C57**: Text after the number and unit is ignored (age_trailing_ignored).
* **C58**: False for interruptions during a copy (upload_interrupted_incomplete); proved for all interruptions between two files.
* **C60**: The count is right in all cases; the exit status is the count modulo 256 (lint_status_wraps).
* **C61**: False for remote files that do not exist (missing_download_leaks).
* **C62**: A template called .tmpl (only dots before it) is its own result (template_overwritten).
* **C63**: Full if the first differing component of the link is not a text prefix of that of the target and the target is not the own directory; both exceptions are proved to go wrong.
* **C64**: Full if the name of the tree does not occur again in the link's path and has no slash at the end; both exceptions are proved to go wrong.
* **C67**: Sound and complete for link texts without needless parts; for others realpath can return a different place (proved).
* **C70**: For overrides of one part and variables without a colon. A repeated override counts at its first place, an override of several parts that repeats a text is lost, and an append to a variable in small letters makes it an override of a shorter name (proved).
* **C74**: Holds if all tasks take their locks in one order, in particular for the tasks of isar, which have one lock each. The locks of a task are taken in the order of its lockfiles flag, without sorting and without removing repetitions: two tasks with different orders, or one task that names a lock twice, wait for ever (proved).
* **C80**: Holds without BB_SETSCENE_ENFORCE. With it, task_fail lowers the count of active tasks for a task that never was active, so with -k more tasks than BB_NUMBER_THREADS are started, and the refused task fails again in every step (both proved).
* **C83**: Holds without BB_SETSCENE_ENFORCE, and if --setscene-only is not given for a build without setscene tasks: such a build fails although nothing failed (proved).
* **C86**: Floating point numbers are exact rationals. If more lines than announced packages are counted, the reports exceed 100 % and the bar goes back at the next stage; if apt announces 0 packages and a counted line follows, the task fails with a division by zero (all proved).
* **C87**: For output without carriage returns, and only for complete lines: the last line is lost if it has no line feed, and with carriage returns the log depends on how the output is cut (proved). Colour codes are not modelled.
* **C88**: For remote URLs fetched with wget, files written by others with a time that is not in the past, names without '[', and a fetch in which the disk does not fail and wget does not report success without a file. Fetch.download swallows an IOError that is not ESTALE, so that such a fetch returns normally without a file (proved). Two URLs of one recipe with the same file name, a file put in place with an old time, and names with '[' also break it (all proved). The checksum of a file:// URL is never looked at (proved).
* **C89**: If the disk does not fail in the fetch: an IOError is swallowed and the fetch succeeds without a file (proved).
* **C93**: Characters outside ASCII in paths are not modelled. The second part does not hold for hosts with '@' (proved), and decodeurl fails with an UnboundLocalError for a user that begins with a colon (proved).
* **C94**: The decision is exact for the host that decodeurl finds. That is the host that a client contacts only for URLs without '?', '#' and ';' before the first '/', with no '@' right after '://', and with no address in brackets: http://evil.org?@good.org/x is trusted because of good.org although wget contacts evil.org (proved).
* **C97**: What the parsers find in texts is an input. Names and values are put together without separators, so that moving text from one variable to another need not change the base hash (proved); the sensitivity is for changes in which no value gets shorter, or only one value changes.
* **C99**: For at most one removal that calls no functions: handle_remove binds its set anew in the first round, so that what a second removal refers to is lost and a change of it does not change the hash (proved).
