{"id": "C01", "title": "Partitions of a wic image never overlap", "statement": "When wic lays out the partitions of a .wks file without reporting an error, the sector ranges given to any two partitions are disjoint, they follow the order of the .wks file, and none of them touches the sectors reserved at the start of the disk for the partition table (1 sector for msdos, 34 for gpt and gpt-hybrid). The ranges passed to parted when the partition table is written stay inside those ranges.", "quantifier": "every list of part lines, with any mix of sizes, --align, --offset, --type, --no-table, and every partition table format", "why_tests_cant": "the offsets depend on the whole history of earlier partitions; a test fixes one .wks file", "anchors": ["scripts/lib/wic/plugins/imager/direct.py:PartitionedImage.layout_partitions", "scripts/lib/wic/plugins/imager/direct.py:PartitionedImage.create", "scripts/lib/wic/plugins/imager/direct.py:PartitionedImage._create_partition"]}
{"id": "C02", "title": "Every partition fits in the generated image file", "statement": "The size to which the image file is truncated is at least the end of every partition; for gpt and gpt-hybrid at least 34 further sectors stay free after the last partition for the backup table, and any requested extra space is added on top.", "quantifier": "every list of part lines, every table format, every extra space value", "why_tests_cant": "depends on the sum over an unbounded list of partitions", "anchors": ["scripts/lib/wic/plugins/imager/direct.py:PartitionedImage.layout_partitions", "scripts/lib/wic/plugins/imager/direct.py:PartitionedImage._make_disk"]}
{"id": "C03", "title": "--align is honoured", "statement": "A partition declared with --align A and without --offset starts at a multiple of A KiB, and it starts at the first such position that is free: moving it one alignment unit forward in the disk is never done without need.", "quantifier": "every .wks partition list and every position of the partition in it", "why_tests_cant": "the start position depends on all previous partitions", "anchors": ["scripts/lib/wic/plugins/imager/direct.py:PartitionedImage.layout_partitions"]}
{"id": "C04", "title": "--offset is honoured exactly or the build fails", "statement": "If layout succeeds, a partition declared with --offset starts at exactly that byte offset; an offset that is not a sector multiple, or that lies in space already used, is rejected.", "quantifier": "every .wks partition list", "why_tests_cant": "depends on all previous partitions", "anchors": ["scripts/lib/wic/plugins/imager/direct.py:PartitionedImage.layout_partitions"]}
{"id": "C05", "title": "Partition numbers in the table agree with the numbers used for fstab and root=", "statement": "The number a partition gets in the partition table equals the number that is used to name its device in /etc/fstab and in the PARTUUID of msdos disks; distinct table partitions get distinct numbers and partitions without table entry get none.", "quantifier": "every .wks partition list and every table format", "why_tests_cant": "two separate computations have to agree for every list; they agree on all common examples", "anchors": ["scripts/lib/wic/plugins/imager/direct.py:PartitionedImage.__init__", "scripts/lib/wic/plugins/imager/direct.py:PartitionedImage.layout_partitions"]}
{"id": "C06", "title": "The msdos extended partition contains every logical partition", "statement": "When an msdos table needs logical partitions, exactly one extended partition is requested, its range contains the ranges of all logical partitions and it does not overlap a primary partition; at most four primary slots are used.", "quantifier": "every .wks partition list on an msdos table", "why_tests_cant": "the size is accumulated over an unbounded list and only --offset, --no-table or interleaved types expose an error", "anchors": ["scripts/lib/wic/plugins/imager/direct.py:PartitionedImage.layout_partitions", "scripts/lib/wic/plugins/imager/direct.py:PartitionedImage.create"]}
{"id": "C07", "title": "sparse_copy reproduces the source bytes", "statement": "Copying a source file into a region of the destination that reads as zeros leaves in that region exactly the bytes of the source from `skip` on, whichever mapping method (SEEK_DATA/SEEK_HOLE, FIEMAP, none) reported the data ranges.", "quantifier": "every source content, every valid map of data ranges, every skip, seek and length", "why_tests_cant": "the copy loop works on chunks and ranges of any size and number", "anchors": ["scripts/lib/wic/filemap.py:sparse_copy", "scripts/lib/wic/filemap.py:FilemapSeek", "scripts/lib/wic/filemap.py:FilemapFiemap", "scripts/lib/wic/filemap.py:FilemapNobmap"]}
{"id": "C08", "title": "sparse_copy does not touch bytes outside its target region", "statement": "Bytes of the destination before `seek` and after the end of the copied data are unchanged, and with a length limit no byte beyond that limit is read or written.", "quantifier": "every source, destination, map, skip, seek and length", "why_tests_cant": "boundary arithmetic on arbitrary offsets", "anchors": ["scripts/lib/wic/filemap.py:sparse_copy"]}
{"id": "C09", "title": "Block ranges reported for a file are sorted, disjoint and cover the reported extents", "statement": "The mapped ranges yielded for an area are non-empty, strictly increasing and separated by gaps, and their union is exactly the set of mapped blocks of the area.", "quantifier": "every extent list returned by the kernel and every area", "why_tests_cant": "the merging state machine must work for any number of extents", "anchors": ["scripts/lib/wic/filemap.py:FilemapFiemap.get_mapped_ranges", "scripts/lib/wic/filemap.py:FilemapSeek._get_ranges"]}
{"id": "C10", "title": "Size arguments are converted to the documented unit", "statement": "A size option given as <num> or <num><suffix> is either rejected or converted to exactly num times the unit of the suffix (S=512 bytes where sectors are allowed, K=1, M=1024, G=1024*1024 KiB), the default unit being used exactly when no suffix is given.", "quantifier": "every argument string, every default suffix", "why_tests_cant": "unbounded strings and numbers", "anchors": ["scripts/lib/wic/ksparser.py:sizetype"]}
{"id": "C11", "title": "Contradictory part options are rejected", "statement": "A partition is accepted from a .wks line only if: squashfs has neither fsuuid nor label, erofs has no label, a FAT fsuuid fits in 32 bits worth of hex digits, --use-label comes with --label, and --fixed-size is not combined with a non-zero overhead factor or extra space; and an accepted line is never changed except for the documented defaults.", "quantifier": "every combination of options", "why_tests_cant": "combinatorial option space with string valued options", "anchors": ["scripts/lib/wic/ksparser.py:KickStart._parse"]}
{"id": "C12", "title": "Explicit --overhead-factor and --extra-space are honoured", "statement": "When a part line without --fixed-size gives an overhead factor or extra space, that value is the one used; the default is used only when the option is absent.", "quantifier": "every command line spelling argparse accepts", "why_tests_cant": "depends on all spellings of the option, e.g. --opt=value and abbreviations", "anchors": ["scripts/lib/wic/ksparser.py:KickStart._parse"]}
{"id": "C13", "title": "Variable expansion of .wks lines is complete and terminates for plain values", "statement": "If variable values contain no further references, expansion stops, replaces references left to right by their values, changes nothing else, and leaves a reference only if some variable is unknown.", "quantifier": "every line and every variable environment", "why_tests_cant": "the loop re-scans the line; termination is not testable", "anchors": ["scripts/lib/wic/ksparser.py:expand_line"]}
{"id": "C14", "title": "A partition is never smaller than what it has to hold", "statement": "The size reserved for a rootfs partition is at least the content size, at least the requested minimum, and with --fixed-size exactly the fixed size or the build fails.", "quantifier": "every content size, requested size, extra space and overhead factor", "why_tests_cant": "arithmetic over all numbers", "anchors": ["scripts/lib/wic/partition.py:Partition.get_rootfs_size", "scripts/lib/wic/partition.py:Partition.get_extra_block_count", "scripts/lib/wic/partition.py:Partition.disk_size"]}
{"id": "C15", "title": "fstab gets one correct line per mounted partition", "statement": "Updating fstab keeps all existing lines in order and appends exactly one line, in order, for every partition of the table whose mountpoint starts with a slash or is swap, and for no other. The line names the device by the identifier the partition really has: the filesystem UUID (for FAT in the form blkid prints), the label, the PARTUUID, or the device name with the partition's number.", "quantifier": "every partition list and every existing fstab", "why_tests_cant": "list of any length with string valued identifiers", "anchors": ["scripts/lib/wic/plugins/imager/direct.py:DirectPlugin.update_fstab"]}
{"id": "C16", "title": "sstate upload makes the remote a superset of the local cache and changes nothing else", "statement": "After a successful upload every file of the local cache that matches the filters exists on the target with the same content; files that were already on the target are not modified.", "quantifier": "every local cache and every remote content", "why_tests_cant": "set of files of any size and any overlap", "anchors": ["scripts/isar-sstate:sstate_upload"]}
{"id": "C17", "title": "sstate clean removes only artifacts older than the limits and keeps young ones", "statement": "Cleaning a target deletes an artifact only if it is older than the configured maximum age for its kind, and after the run no matching artifact older than its limit remains.", "quantifier": "every set of files with every age and both limits", "why_tests_cant": "unbounded set of files and ages", "anchors": ["scripts/isar-sstate:sstate_clean"]}
{"id": "C18", "title": "Deleting from a filesystem target never removes directories that still contain files", "statement": "Deleting a file removes that file, and its parent directories only as long as they are empty; no other file disappears.", "quantifier": "every directory tree and every sequence of deletions", "why_tests_cant": "depends on tree shape and history", "anchors": ["scripts/isar-sstate:SstateFileTarget.delete"]}
{"id": "C19", "title": "List variables: '-item' and '~item' remove the item", "statement": "After evaluation of a list variable, none of the items that was requested for removal with a - or ~ prefix is left, no marker itself is left, and all other items are kept in order.", "quantifier": "every list of items and markers", "why_tests_cant": "lists of any length with repetition", "anchors": ["meta/classes-global/lists.bbclass:remove_prefixed_items"]}
{"id": "C20", "title": "List variables: implied items are closed under implication and evaluation terminates", "statement": "Evaluating the implied items of a list variable terminates even if the mapping is cyclic, and the result contains every item that is transitively implied by an item of the variable and nothing else.", "quantifier": "every mapping (also cyclic) and every list", "why_tests_cant": "cycles and depth are unbounded", "anchors": ["meta/classes-global/lists.bbclass:add_implied_items"]}
{"id": "C21", "title": "compat/native variants depend on the same variant of their dependencies", "statement": "In the -compat or -native variant of a recipe every dependency or provide gets the variant suffix, names which already carry a variant suffix stay as they are, and -archall names are kept without suffix only in the native variant.", "quantifier": "every dependency list and both variants", "why_tests_cant": "list of arbitrary names", "anchors": ["meta/classes-recipe/multiarch.bbclass:fixup_depends"]}
{"id": "C22", "title": "Package names for installation carry the right architecture", "statement": "Translating bitbake targets to Debian packages maps name-compat to name:compat-arch, name-native to name:host-arch, and leaves every other name alone, keeping order and number.", "quantifier": "every list of targets", "why_tests_cant": "arbitrary names, also nested suffixes", "anchors": ["meta/classes-recipe/multiarch.bbclass:isar_multiarch_packages"]}
{"id": "C23", "title": "Every variant that can be requested is provided by exactly one recipe variant", "statement": "For every recipe and architecture setting, the -native (and, if it can be built, -compat) name of a recipe is available either as a separate variant or as alias of the target build, never as both.", "quantifier": "every combination of architectures, DPKG_ARCH, compat support and PROVIDES", "why_tests_cant": "combinatorial", "anchors": ["meta/classes-recipe/multiarch.bbclass:anonymous python function"]}
{"id": "C24", "title": "apt sources are aggregated without loss or duplicates", "statement": "Every configured source list file contributes its entries exactly once, in the order in which the files are first named; the generated source list, read again, has exactly those entries (after mirroring), in order, and a configured file that does not exist is an error.", "quantifier": "every list of file names with repetitions and every file content", "why_tests_cant": "arbitrary lists", "anchors": ["meta/classes-recipe/bootstrap.bbclass:aggregate_aptsources_list", "meta/classes-recipe/bootstrap.bbclass:get_aptsources_list"]}
{"id": "C25", "title": "apt mirrors rewrite only matching sources, first match wins", "statement": "A source entry's location is rewritten by the first premirror whose expression is found in it, all other fields stay, and the entry stays unchanged if none matches. The premirrors are the local repository if used, else the snapshot mirror if used, else the configured ones.", "quantifier": "every mirror list and every source URI", "why_tests_cant": "arbitrary lists", "anchors": ["meta/classes-recipe/bootstrap.bbclass:get_apt_source_mirror"]}
{"id": "C26", "title": "The base type of an image type is well defined", "statement": "Stripping conversion suffixes from an image type terminates, yields a type without any conversion suffix, and reattaching the stripped suffixes gives the type back; base types are fixed points.", "quantifier": "every type name and every set of conversions", "why_tests_cant": "nested suffixes of any depth", "anchors": ["meta/classes-recipe/image.bbclass:get_base_type"]}
{"id": "C27", "title": "All image types that are needed get built", "statement": "The set of image types that is built contains all requested types, their base types and all types they transitively depend on.", "quantifier": "every dependency map and request", "why_tests_cant": "transitive closure", "anchors": ["meta/classes-recipe/image.bbclass:get_image_basetypes", "meta/classes-recipe/image.bbclass:collect_image_type"]}
{"id": "C28", "title": "A requested image file is never deleted after the build", "statement": "After the commands of a task building an image, every image file that was requested or that another type depends on exists, and no other (temporary) image file is left.", "quantifier": "every IMAGE_FSTYPES list and set of conversions", "why_tests_cant": "depends on order and combination of types", "anchors": ["meta/classes-recipe/image.bbclass:anonymous python function"]}
{"id": "C29", "title": "Conversions are executed after the step that produces their input", "statement": "For every image type with several conversion suffixes, the command for each suffix runs after the command that produces its input, and every needed conversion runs once.", "quantifier": "every type list", "why_tests_cant": "nested suffixes of any depth", "anchors": ["meta/classes-recipe/image.bbclass:create_conversions"]}
{"id": "C30", "title": "Mounts are undone whatever happens during rootfs installation", "statement": "For every list of install commands and every point at which one of them fails, everything that was mounted for the rootfs is unmounted exactly once before the task ends.", "quantifier": "every command list, every failure point", "why_tests_cant": "crash points cannot be enumerated by tests", "anchors": ["meta/classes-recipe/rootfs.bbclass:do_rootfs_install", "meta/classes-recipe/rootfs.bbclass:do_rootfs_postprocess"]}
{"id": "C31", "title": "The apt lock is held exactly while the commands that need it run", "statement": "A command declared with isar-apt-lock acquire-before runs under the lock, the lock stays held until the command declared with release-after has finished, and it is free when the task ended.", "quantifier": "every command list with flags, every failure point", "why_tests_cant": "crash points and interleavings", "anchors": ["meta/classes-recipe/rootfs.bbclass:do_rootfs_install"]}
{"id": "C32", "title": "rootfs umount is the inverse of rootfs mount", "statement": "Running the mount function once or several times and then the unmount function leaves no mount below the rootfs and does not touch other mounts.", "quantifier": "every initial mount table and number of repetitions", "why_tests_cant": "history dependent", "anchors": ["meta/classes-recipe/rootfs.bbclass:rootfs_do_mounts", "meta/classes-recipe/rootfs.bbclass:rootfs_do_umounts"]}
{"id": "C33", "title": "Templates are only written inside the work directory", "statement": "Processing the template files writes only files inside WORKDIR; a template that lies elsewhere is refused and stops the task.", "quantifier": "every template file name", "why_tests_cant": "string prefix checks over all paths", "anchors": ["meta/classes-global/template.bbclass:do_transform_template"]}
{"id": "C34", "title": "root_cleandirs only removes directories below TMPDIR", "statement": "The cleanup run as root removes exactly the listed directories below TMPDIR, refuses lists with other directories, and does not remove a directory in which something is mounted.", "quantifier": "every directory list and mount table", "why_tests_cant": "string prefix checks over all paths and mount tables", "anchors": ["meta/classes-global/base.bbclass:root_cleandirs"]}
{"id": "C35", "title": "User and group creation is repeatable and complete", "statement": "Whatever accounts the image has, all account commands succeed, every configured group and user is as configured afterwards (attributes that are not configured are kept), other accounts are unchanged, running the step again changes nothing, and the order of the entries does not matter.", "quantifier": "every account configuration and every set of existing accounts", "why_tests_cant": "all combinations of flags, attributes and existing accounts", "anchors": ["meta/classes-recipe/image-account-extension.bbclass:image_create_groups", "meta/classes-recipe/image-account-extension.bbclass:image_create_users"]}
{"id": "C36", "title": "Version comparison is a total preorder", "statement": "Comparing two version strings gives opposite signs when swapped, is transitive, and gives equality exactly if the versions have the same sequence of components (numbers compared by value).", "quantifier": "all triples of version strings", "why_tests_cant": "order laws quantify over all triples", "anchors": ["bitbake/lib/bb/utils.py:vercmp", "bitbake/lib/bb/utils.py:vercmp_part", "bitbake/lib/bb/utils.py:explode_version"]}
{"id": "C37", "title": "Dependency strings: version constraints are dropped or kept faithfully", "statement": "Exploding a dependency string returns exactly the words outside of parentheses in order; however spaces and commas are written, every name gets exactly its constraints in order; constraints without operator are refused; joining exploded dependencies and exploding again gives the same result.", "quantifier": "every dependency string", "why_tests_cant": "unbounded strings", "anchors": ["bitbake/lib/bb/utils.py:explode_deps", "bitbake/lib/bb/utils.py:explode_dep_versions2", "bitbake/lib/bb/utils.py:join_deps"]}
{"id": "C38", "title": "Writing to a copy of a copy-on-write dictionary never changes the original", "statement": "After any sequence of operations on copies, the values visible through the original are those it had, and each copy shows its own writes on top of the values of its parent.", "quantifier": "every sequence of operations on every tree of copies", "why_tests_cant": "histories of any length", "anchors": ["bitbake/lib/bb/COW.py:COWDictMeta"]}
{"id": "C39", "title": "Variable operators compose as documented", "statement": "The value of a variable is its base value (or default), with active appends added in order, active prepends put in front, and words listed in active removes taken out, independently of the order in which operators of different kinds were given.", "quantifier": "every sequence of lines about one variable (=, ?=, ??=, +=, =+, .=, =., append, prepend, remove with overrides) and every list of active overrides", "why_tests_cant": "histories of any length", "anchors": ["bitbake/lib/bb/data_smart.py:DataSmart.setVar", "bitbake/lib/bb/data_smart.py:DataSmart.getVarFlag", "bitbake/lib/bb/parse/ast.py:DataNode.eval"]}
{"id": "C40", "title": "Writes to a copy of the datastore are not visible in the original", "statement": "Setting or deleting variables and flags in a copy of the datastore never changes what the original returns.", "quantifier": "every sequence of operations on any number of copies, before and after the copy", "why_tests_cant": "histories of any length", "anchors": ["bitbake/lib/bb/data_smart.py:DataSmart.createCopy"]}
{"id": "C41", "title": "The assembled image holds each partition's content at its offset", "statement": "After assembly each partition that has a source file reads in the image at its offset as that file, up to the partition's size, and no byte outside those ranges has changed.", "quantifier": "every layout and every set of source files", "why_tests_cant": "pointwise on bytes, for any number of partitions", "anchors": ["scripts/lib/wic/plugins/imager/direct.py:PartitionedImage.assemble"]}
{"id": "C42", "title": "Generated msdos PARTUUIDs are distinct", "statement": "Partitions of an msdos disk without explicit --uuid get PARTUUIDs that are pairwise different and carry the disk identifier.", "quantifier": "every partition list and disk identifier", "why_tests_cant": "number formatting for any number of partitions", "anchors": ["scripts/lib/wic/plugins/imager/direct.py:PartitionedImage.prepare", "scripts/lib/wic/plugins/imager/direct.py:PartitionedImage.__init__"]}
{"id": "C43", "title": "root= names the partition mounted at /", "statement": "The root device given to the boot loader names the first partition mounted at / by the identifier it has, and no root device is given if there is none.", "quantifier": "every partition list", "why_tests_cant": "list of any length", "anchors": ["scripts/lib/wic/plugins/imager/direct.py:DirectPlugin.rootdev"]}
{"id": "C44", "title": "The hybrid MBR has a protective entry and at most three copies", "statement": "With a gpt-hybrid table, at most three partitions with --mbr are accepted; the MBR lists exactly those, in order and with their ranges, after a protective entry, and no two entries overlap.", "quantifier": "every partition list", "why_tests_cant": "list of any length", "anchors": ["scripts/lib/wic/plugins/imager/direct.py:PartitionedImage._write_hybrid_mbr"]}
{"id": "C45", "title": "Partition flags are applied to the right partition", "statement": "The number used to set names, types, UUIDs and flags of a partition after creation is the number the partition got when parted created the partitions in the requested order.", "quantifier": "every partition list and table format", "why_tests_cant": "two counters have to agree for any list", "anchors": ["scripts/lib/wic/plugins/imager/direct.py:PartitionedImage.create", "scripts/lib/wic/plugins/imager/direct.py:PartitionedImage.layout_partitions"]}
{"id": "C46", "title": "Options a table format does not support are rejected", "statement": "Partition names and types on an msdos table and --mbr outside gpt-hybrid are never silently ignored: the layout fails.", "quantifier": "every partition list and table format", "why_tests_cant": "combinations over any list", "anchors": ["scripts/lib/wic/plugins/imager/direct.py:PartitionedImage.layout_partitions"]}
{"id": "C47", "title": "Kickstart includes are textual and partitions keep their order", "statement": "Reading a kickstart file gives the partitions of its part lines, with the lines of included files in place of the include line, in that order and numbered from 1, and at most one bootloader line is accepted. A file that includes itself is never accepted.", "quantifier": "every file system content and nesting of includes", "why_tests_cant": "nesting of any depth", "anchors": ["scripts/lib/wic/ksparser.py:KickStart._parse"]}
{"id": "C48", "title": "No kickstart line is dropped silently", "statement": "Every line of a kickstart file that is neither empty nor a comment has an effect or makes parsing fail.", "quantifier": "every line", "why_tests_cant": "all strings, including quoting", "anchors": ["scripts/lib/wic/ksparser.py:KickStart._parse"]}
{"id": "C49", "title": "Options of a part line are recorded as written", "statement": "A part line that uses options in their documented form, each with its arguments, is parsed into exactly those uses in that order.", "quantifier": "every list of options with arguments that do not start with a dash", "why_tests_cant": "lists of any length", "anchors": ["scripts/lib/wic/ksparser.py:KickStart.__init__"]}
{"id": "C50", "title": "System ids are one byte", "statement": "--system-id accepts exactly hexadecimal numbers from 1 to 255 and passes the text on unchanged.", "quantifier": "every argument string", "why_tests_cant": "all strings", "anchors": ["scripts/lib/wic/ksparser.py:systemidtype"]}
{"id": "C51", "title": "Native build dependencies follow the build mode", "statement": "A recipe for a foreign architecture that is not cross compiled depends on the target variant of each dependency written with -native; in all other cases the dependencies stay as written, in order.", "quantifier": "every dependency list and architecture setting", "why_tests_cant": "arbitrary lists", "anchors": ["meta/classes-recipe/multiarch.bbclass:anonymous python function"]}
{"id": "C52", "title": "apt source lines are read field by field", "statement": "For each one-line style deb or deb-src line the type, options, location, suite and components are read as written, whatever whitespace is used, and bootstrapping uses location, suite and components of the first deb entry. Comments, blank lines and lines of other types are no entries.", "quantifier": "every line, every number of options", "why_tests_cant": "all strings", "anchors": ["meta/classes-recipe/bootstrap.bbclass:parse_aptsources_list_line", "meta/classes-recipe/bootstrap.bbclass:get_distro_primary_source_entry"]}
{"id": "C53", "title": "Mirroring keeps the options of an entry", "statement": "The options of a source entry (architecture, signing key) survive the rewriting by a premirror.", "quantifier": "every entry and mirror list", "why_tests_cant": "arbitrary lists", "anchors": ["meta/classes-recipe/bootstrap.bbclass:get_apt_source_mirror"]}
{"id": "C54", "title": "Image tasks run after the tasks they depend on", "statement": "The task building an image type runs after the tasks building the image types it depends on, and only after those.", "quantifier": "every dependency map and request", "why_tests_cant": "transitive and nested types", "anchors": ["meta/classes-recipe/image.bbclass:anonymous python function"]}
{"id": "C55", "title": "The list of base types agrees with the tasks", "statement": "The list of base types offered to other classes contains exactly the base types that get a build task.", "quantifier": "every dependency map and request", "why_tests_cant": "two separate traversals have to agree on all inputs", "anchors": ["meta/classes-recipe/image.bbclass:get_image_basetypes", "meta/classes-recipe/image.bbclass:collect_image_type"]}
{"id": "C56", "title": "Different image types are built by different tasks", "statement": "Two different base types never share the name of their build task.", "quantifier": "every pair of type names", "why_tests_cant": "all pairs of strings", "anchors": ["meta/classes-recipe/image.bbclass:anonymous python function"]}
{"id": "C57", "title": "Age limits mean what they say", "statement": "An age limit given as a number with a unit (w, d, h, m, s) is that many seconds, a number without unit counts days, and any other text is rejected.", "quantifier": "every text", "why_tests_cant": "all strings", "anchors": ["scripts/isar-sstate:sstate_clean.convert_to_seconds"]}
{"id": "C58", "title": "An interrupted upload can be repeated", "statement": "If an upload to a shared cache is interrupted at any point and then repeated, the target has the same files with the same contents as after an uninterrupted upload.", "quantifier": "every point of interruption, every cache", "why_tests_cant": "crash points", "anchors": ["scripts/isar-sstate:sstate_upload", "scripts/isar-sstate:SstateFileTarget.upload"]}
{"id": "C59", "title": "Artifact names are read back correctly", "statement": "For every artifact stored under its standard name, in any subdirectory, the recipe name, architecture, hash, task and suffix read from the path are those it was stored with.", "quantifier": "all field values and directories", "why_tests_cant": "all strings", "anchors": ["scripts/isar-sstate:SstateRegex", "scripts/isar-sstate:SstateFileTarget.list_all"]}
{"id": "C60", "title": "lint reports every local path", "statement": "The lint command succeeds (exit status zero) exactly if no checked signature has a variable whose value is a path below the build or source directory.", "quantifier": "every set of signatures", "why_tests_cant": "unbounded number of signatures and values", "anchors": ["scripts/isar-sstate:sstate_lint"]}
{"id": "C61", "title": "Temporary downloads are removed", "statement": "However often remote files are accessed during analysis, each is downloaded once, and after the analysis no temporary file is left.", "quantifier": "every sequence of accesses", "why_tests_cant": "histories", "anchors": ["scripts/isar-sstate:SstateTargetBase.download_cached", "scripts/isar-sstate:SstateTargetBase.cleanup_cache", "scripts/isar-sstate:SstateDavTarget.download", "scripts/isar-sstate:SstateS3Target.download"]}
{"id": "C62", "title": "Templates are kept", "statement": "The result of a template is written next to it, under its name without .tmpl (or with .out added), and never over the template itself.", "quantifier": "every template name", "why_tests_cant": "all file names", "anchors": ["meta/classes-global/template.bbclass:do_transform_template"]}
{"id": "C63", "title": "Absolute links made relative keep their target", "statement": "When an absolute symbolic link is turned into a relative one, the new link leads to the same file.", "quantifier": "every link path and target", "why_tests_cant": "all paths", "anchors": ["meta/lib/oe/path.py:make_relative_symlink"]}
{"id": "C64", "title": "Links in a tree are made relative to the tree", "statement": "When the absolute links in a directory tree are made relative, each leads to the file that its text names below the tree.", "quantifier": "every tree, link path and link text", "why_tests_cant": "all paths", "anchors": ["meta/lib/oe/path.py:replace_absolute_symlinks"]}
{"id": "C65", "title": "is_path_parent decides containment", "statement": "is_path_parent holds exactly if at least one path is given and every one is the directory itself or lies in it, for every spelling of the paths.", "quantifier": "all paths and working directories", "why_tests_cant": "all spellings of paths", "anchors": ["meta/lib/oe/path.py:is_path_parent"]}
{"id": "C66", "title": "realpath stays inside the root directory", "statement": "The resolution of a path in a root directory never leaves that directory and never fails an assertion, whatever symbolic links the tree contains.", "quantifier": "every path, tree of links and loop limit", "why_tests_cant": "all configurations of links, including cycles", "anchors": ["meta/lib/oe/path.py:realpath", "meta/lib/oe/path.py:__realpath", "meta/lib/oe/path.py:__realpath_rel"]}
{"id": "C67", "title": "realpath resolves as the system would", "statement": "The path returned by realpath is the one the system would resolve in a process with that root directory, it contains no link, and it is found whenever the system needs no more links than the limit.", "quantifier": "every path, tree of links and loop limit", "why_tests_cant": "all configurations of links", "anchors": ["meta/lib/oe/path.py:realpath"]}
{"id": "C68", "title": "Version strings and operators are consistent", "statement": "Epoch, version and revision of a version string are read as documented (a version is unreadable only if its epoch is not a number), for readable versions exactly one of <, = and > holds and the other operators are the usual combinations, and unknown operators are refused.", "quantifier": "all version strings and operators", "why_tests_cant": "all strings", "anchors": ["bitbake/lib/bb/utils.py:split_version", "bitbake/lib/bb/utils.py:vercmp_string", "bitbake/lib/bb/utils.py:vercmp_string_op"]}
{"id": "C69", "title": "Release candidates, longer versions and numbers are ordered as users expect", "statement": "A version with a tilde comes before the same version without it, a version with a further part comes later, numbers are compared by value at any place, and zeros in front of numbers do not matter.", "quantifier": "all versions, suffixes and numbers", "why_tests_cant": "all versions", "anchors": ["bitbake/lib/bb/utils.py:vercmp_part", "bitbake/lib/bb/utils.py:explode_version"]}
{"id": "C70", "title": "The last active override wins", "statement": "After any sequence of assignments to a variable and its overrides, its value is the last one given for the last override in the list of active overrides that has a value, and the plain value if there is none.", "quantifier": "every sequence of assignments, every list of active overrides", "why_tests_cant": "all histories and all lists of overrides", "anchors": ["bitbake/lib/bb/data_smart.py:DataSmart.getVarFlag", "bitbake/lib/bb/data_smart.py:DataSmart._setvar_update_overrides"]}
{"id": "C71", "title": "What is set is read back, what is deleted is gone", "statement": "After a variable is set outside of parsing, reading it gives the new value whatever operators, defaults and overrides it had and whatever overrides are active; after it is deleted it has no value and no flags; a new copy shows what the original shows.", "quantifier": "every history of the datastore and of its copies, every list of active overrides", "why_tests_cant": "all histories", "anchors": ["bitbake/lib/bb/data_smart.py:DataSmart.setVar", "bitbake/lib/bb/data_smart.py:DataSmart.delVar", "bitbake/lib/bb/data_smart.py:DataSmart.createCopy"]}
{"id": "C72", "title": "Removes of an overriding variable apply to the overridden one", "statement": "If an override variable takes effect, exactly the words removed from it and those removed from the variable itself are missing in the value.", "quantifier": "every history, every list of active overrides", "why_tests_cant": "all histories", "anchors": ["bitbake/lib/bb/data_smart.py:DataSmart.getVarFlag"]}
{"id": "C73", "title": "Lock files exclude each other", "statement": "At no time do two users have the lock of the same name unless both asked for it shared, although lock files are removed when they are released; the file is there while somebody has the lock, and a release never removes the file of a lock that another user has. After any crash a lock that nobody has can be taken again without cleaning up.", "quantifier": "every number of processes and lock files, every interleaving of their system calls, every crash point", "why_tests_cant": "races between open, flock, stat and unlink show only in rare schedules", "anchors": ["bitbake/lib/bb/utils.py:lockfile", "bitbake/lib/bb/utils.py:unlockfile", "bitbake/lib/bb/utils.py:fileslocked", "scripts/lockrun.py"]}
{"id": "C74", "title": "Tasks that wait for locks go on", "statement": "Tasks with lock files never wait for each other for ever.", "quantifier": "every number of tasks, every list of lock files, every schedule", "why_tests_cant": "a deadlock needs a rare schedule", "anchors": ["bitbake/lib/bb/utils.py:fileslocked", "bitbake/lib/bb/build.py:exec_func"]}
{"id": "C75", "title": "Circular dependencies are found", "statement": "The build is refused before any task starts if and only if some task depends on itself, directly or through other tasks.", "quantifier": "every finite graph of tasks", "why_tests_cant": "all graphs", "anchors": ["bitbake/lib/bb/runqueue.py:RunQueueData.calculate_task_weights", "bitbake/lib/bb/runqueue.py:RunQueueData.prepare"]}
{"id": "C76", "title": "Exactly the needed tasks are run", "statement": "The run queue holds exactly the tasks that were asked for and all that they depend on, directly or through others; with --runonly exactly the tasks of these names and what they depend on.", "quantifier": "every graph of tasks, every list of targets", "why_tests_cant": "all graphs", "anchors": ["bitbake/lib/bb/runqueue.py:RunQueueData.prepare"]}
{"id": "C77", "title": "Schedulers only choose an order", "statement": "Each task has exactly one place in the order of the scheduler; the scheduler speed never puts a task before one it depends on and never before a heavier one; the scheduler completion groups tasks by name.", "quantifier": "every graph of tasks", "why_tests_cant": "all graphs", "anchors": ["bitbake/lib/bb/runqueue.py:RunQueueSchedulerSpeed", "bitbake/lib/bb/runqueue.py:RunQueueSchedulerCompletion", "bitbake/lib/bb/runqueue.py:RunQueueData.calculate_task_weights"]}
{"id": "C78", "title": "What a restored task makes unnecessary is computed exactly", "statement": "For each task that can be restored from the shared state cache, the tasks that need not run when it is restored are exactly those it depends on without another restorable task between; two restorable tasks are linked exactly if one depends on the other that way; the tasks that the build needs in any case are exactly the targets that cannot be restored, the tasks nothing depends on, and what these depend on down to the next restorable task.", "quantifier": "every graph of tasks without loops, every set of restorable tasks and of targets", "why_tests_cant": "all graphs", "anchors": ["bitbake/lib/bb/runqueue.py:build_scenequeue_data"]}
{"id": "C79", "title": "A task starts only when all it depends on has been produced", "statement": "Whenever a task is given to a worker, each of its dependencies has been run with success, has nothing to execute, has a current stamp, or has been restored; that a dependency was skipped as covered or not needed is never enough. A task is started at most once, and a task that was restored is not run.", "quantifier": "every graph, every order in which workers report, every result of each task, every state of stamps and cache at each step", "why_tests_cant": "depends on the interleaving of setscene and normal tasks", "anchors": ["bitbake/lib/bb/runqueue.py:RunQueueExecute.execute", "bitbake/lib/bb/runqueue.py:RunQueueExecute.update_holdofftasks", "bitbake/lib/bb/runqueue.py:RunQueueExecute.task_completeoutright"]}
{"id": "C80", "title": "The limits for tasks in parallel are kept", "statement": "At no time are more than BB_NUMBER_THREADS tasks with the workers, setscene tasks included, and no more tasks of one name than the flag number_threads of that name says (but at least one).", "quantifier": "every graph, every order of reports, every history", "why_tests_cant": "counts must hold in all interleavings", "anchors": ["bitbake/lib/bb/runqueue.py:RunQueueExecute.can_start_task", "bitbake/lib/bb/runqueue.py:RunQueueScheduler.next_buildable_task"]}
{"id": "C81", "title": "Tasks that share a stamp file do not run at the same time", "statement": "While a task runs, no other task with the same stamp file is started.", "quantifier": "every graph, every order of reports", "why_tests_cant": "all interleavings", "anchors": ["bitbake/lib/bb/runqueue.py:RunQueueScheduler.next_buildable_task", "bitbake/lib/bb/runqueue.py:RunQueueExecute.execute"]}
{"id": "C82", "title": "Success means that everything is there", "statement": "If a build ends with success, then every task was run or did not have to, no task failed, and the result of each target was run, restored or current.", "quantifier": "every graph, every order of reports, every state of stamps and cache", "why_tests_cant": "all histories", "anchors": ["bitbake/lib/bb/runqueue.py:RunQueueExecute.execute", "bitbake/lib/bb/runqueue.py:RunQueueExecute.summarise_scenequeue_errors"]}
{"id": "C83", "title": "Every build ends, and fails only for a reason", "statement": "A build that is not stopped from outside does not hang: as long as no task is with a worker every step makes progress, and the number of such steps and reports is bounded by the number of tasks. A build ends without success only if a task failed.", "quantifier": "every graph without loops, every order of reports, every result, every state of stamps and cache at each step", "why_tests_cant": "absence of deadlock in all interleavings", "anchors": ["bitbake/lib/bb/runqueue.py:RunQueueExecute.execute", "bitbake/lib/bb/runqueue.py:RunQueueExecute.finish", "bitbake/lib/bb/runqueue.py:RunQueueExecute.scenequeue_updatecounters"]}
{"id": "C84", "title": "Recipes are skipped exactly when their feature conditions are not met", "statement": "A recipe that inherits features_check is skipped if and only if PARSE_ALL_RECIPES is off and, for one of the six kinds of features, the ANY_OF list is not empty and none of it is present, one of the REQUIRED features is missing, or one of the CONFLICT features is present; the message names exactly the features concerned, and the warning about an unused class appears exactly if none of its variables is set.", "quantifier": "every value of all variables involved", "why_tests_cant": "all combinations of sets of features and of unset and overridden variables", "anchors": ["meta/classes-recipe/features_check.bbclass:anonymous python function", "bitbake/lib/bb/utils.py:to_boolean"]}
{"id": "C85", "title": "Progress and logs of package installation do not depend on how output arrives", "statement": "However the output of apt or of the initramfs generator is cut into pieces by pipes, the log contains it unchanged and the progress reports are the same.", "quantifier": "every output, every way to cut it into pieces", "why_tests_cant": "the pieces depend on timing and buffers", "anchors": ["meta/lib/rootfs_progress.py:PkgsProgressHandler.write"]}
{"id": "C86", "title": "The progress bar is a percentage that never goes back", "statement": "The progress handlers report, for each line that stands for a step, the part of the announced steps that is done; the progress shown for a task with several stages never goes back, stays between 0 and 100, and computing it never makes the task fail.", "quantifier": "every output of the commands, every list of stage weights, every sequence of stages and reports", "why_tests_cant": "all outputs and histories", "anchors": ["meta/lib/rootfs_progress.py:PkgsDownloadProgressHandler", "meta/lib/rootfs_progress.py:PkgsInstallProgressHandler", "meta/lib/rootfs_progress.py:InitrdProgressHandler", "bitbake/lib/bb/progress.py:MultiStageProgressReporter"]}
{"id": "C87", "title": "Logs filtered by lines lose nothing but the filtered lines", "statement": "A handler that filters progress lines out of the log writes exactly the lines that are kept, all of them, in their order, however the output is cut into pieces.", "quantifier": "every output, every way to cut it into pieces, every filter", "why_tests_cant": "the pieces depend on timing and buffers", "anchors": ["bitbake/lib/bb/progress.py:LineFilterProgressHandler.write"]}
{"id": "C88", "title": "A fetch that succeeds has files with the right checksums", "statement": "When fetching a recipe's sources returns successfully, there is a file for every URL, and it has every checksum the recipe gives for it, whatever the mirrors and servers answered and whatever happened to the download directory before: fetches of other recipes, fetches killed at any point, files written or removed by others.", "quantifier": "every history of a download directory, every answer of every server and mirror, every list of URLs and checksums", "why_tests_cant": "all histories, crash points and answers of servers", "anchors": ["bitbake/lib/bb/fetch2/__init__.py:Fetch.download", "bitbake/lib/bb/fetch2/__init__.py:verify_checksum", "bitbake/lib/bb/fetch2/__init__.py:verify_donestamp", "bitbake/lib/bb/fetch2/__init__.py:update_stamp", "bitbake/lib/bb/fetch2/__init__.py:try_mirror_url", "bitbake/lib/bb/fetch2/wget.py:Wget.download"]}
{"id": "C89", "title": "Strict checksums admit nothing unchecked", "statement": "With BB_STRICT_CHECKSUM = 1, fetching a recipe with a remote URL that has no checksum never succeeds.", "quantifier": "every history of a download directory, every answer of servers, every list of URLs", "why_tests_cant": "all histories and answers", "anchors": ["bitbake/lib/bb/fetch2/__init__.py:verify_checksum", "bitbake/lib/bb/fetch2/__init__.py:Fetch.download"]}
{"id": "C90", "title": "Downloads appear whole and right ones are kept", "statement": "At every point where a fetch is killed, each file under the name of a download is one that was there before or one received completely; and a download that has the right checksums is neither changed nor requested again.", "quantifier": "every crash point and disk failure, every list of URLs, every answer of servers", "why_tests_cant": "all crash points", "anchors": ["bitbake/lib/bb/fetch2/wget.py:Wget.download", "bitbake/lib/bb/fetch2/__init__.py:Fetch.download", "bitbake/lib/bb/fetch2/__init__.py:verify_donestamp"]}
{"id": "C91", "title": "Requests go only to allowed servers", "statement": "Fetching makes a request over the network only if BB_NO_NETWORK is off and the server is trusted, and with BB_FETCH_PREMIRRORONLY only to premirrors; without network there are no requests.", "quantifier": "every configuration, every list of URLs and mirrors, every answer and crash point", "why_tests_cant": "all configurations and failures", "anchors": ["bitbake/lib/bb/fetch2/__init__.py:Fetch.download", "bitbake/lib/bb/fetch2/__init__.py:trusted_network", "bitbake/lib/bb/fetch2/__init__.py:check_network_access", "bitbake/lib/bb/fetch2/__init__.py:try_mirrors"]}
{"id": "C92", "title": "A fetch from a working server succeeds whatever happened before", "statement": "If the servers of all URLs of a recipe are trusted and have the right files, and the disk works, then the fetch succeeds, whatever the premirrors answer and whatever the download directory contains, also after fetches that were killed.", "quantifier": "every history of a download directory, every answer of premirrors and mirrors", "why_tests_cant": "all histories and crash points", "anchors": ["bitbake/lib/bb/fetch2/__init__.py:Fetch.download", "bitbake/lib/bb/fetch2/__init__.py:try_mirrors"]}
{"id": "C93", "title": "Reading and writing URLs are inverse", "statement": "Writing the parts of a source URL and reading the result gives the same parts, for all users, passwords, hosts, paths and parameters that can be in a URL; and reading, writing and reading a URL gives what reading gave, with runs of slashes in the path made one.", "quantifier": "every URL and every list of parts", "why_tests_cant": "all texts", "anchors": ["bitbake/lib/bb/fetch2/__init__.py:decodeurl", "bitbake/lib/bb/fetch2/__init__.py:encodeurl"]}
{"id": "C94", "title": "BB_ALLOWED_NETWORKS limits the hosts that are contacted", "statement": "With a list of allowed networks (a recipe's own list comes before the general one) a URL is trusted exactly if its host is in the list or in a domain that the list has with a star; and the host that a client contacts for a trusted URL is one that the list allows.", "quantifier": "every list and every URL", "why_tests_cant": "all texts; adversarial URLs", "anchors": ["bitbake/lib/bb/fetch2/__init__.py:trusted_network", "bitbake/lib/bb/fetch2/__init__.py:decodeurl"]}
{"id": "C95", "title": "The mirrors of a URL are those that the lines give", "statement": "The lines of a list of mirrors are its pairs of words. The URLs tried in place of a URL are different from it and each other, are trusted, and each is made from it by lines of the list that are each used at most once, so that the search ends; and every trusted URL that a line gives for the URL is tried.", "quantifier": "every list of mirrors, also with cycles", "why_tests_cant": "all lists", "anchors": ["bitbake/lib/bb/fetch2/__init__.py:mirror_from_string", "bitbake/lib/bb/fetch2/__init__.py:build_mirroruris"]}
{"id": "C96", "title": "The revision of a source is the most specific one, and never a choice between two", "statement": "The revision is the value of the most specific of the SRCREV variables that has one. If the URL gives a revision too, then it is used only if it is the same; otherwise, and if there is none, the recipe is refused.", "quantifier": "every set of values and every URL", "why_tests_cant": "all configurations", "anchors": ["bitbake/lib/bb/fetch2/__init__.py:srcrev_internal_helper"]}
{"id": "C97", "title": "The base hash of a task covers exactly what the task needs", "statement": "The base hash of a task is made from its text and from the names and values of all variables and functions that it needs, directly or not. A change of anything else leaves it as it is, whatever the order in which the recipe defines things; every change of one of these values changes what is hashed.", "quantifier": "every recipe, every task, every change of values", "why_tests_cant": "all dependency graphs, also with cycles", "anchors": ["bitbake/lib/bb/data.py:generate_dependencies", "bitbake/lib/bb/data.py:generate_dependency_hash"]}
{"id": "C98", "title": "A signature file reproduces the base hash it records", "statement": "The base hash that is made again from the record in a signature file is the one that was recorded, so that the check for a mismatch never fails.", "quantifier": "every recipe and task", "why_tests_cant": "all dependency graphs and lists of ignored variables", "anchors": ["bitbake/lib/bb/siggen.py:SignatureGeneratorBasic.dump_sigtask", "bitbake/lib/bb/siggen.py:calc_basehash"]}
{"id": "C99", "title": "What a variable or function refers to is a dependency", "statement": "A variable or function depends on all variables that its text and its removals refer to, on all known functions that it calls, and on what its vardeps flag names, except what is ignored or excluded; and what is ignored or excluded is never a dependency.", "quantifier": "every variable and function", "why_tests_cant": "all texts and flags", "anchors": ["bitbake/lib/bb/data.py:build_dependencies"]}
{"id": "C100", "title": "Flags count for the hash unless they are in BB_SIGNATURE_EXCLUDE_FLAGS", "statement": "Every flag of a variable is a dependency of the variable exactly if BB_SIGNATURE_EXCLUDE_FLAGS does not name it.", "quantifier": "every variable, flag and list", "why_tests_cant": "all names of flags", "anchors": ["bitbake/lib/bb/data.py:build_dependencies", "meta/conf/bitbake.conf:BB_SIGNATURE_EXCLUDE_FLAGS"]}
{"id": "C101", "title": "Tests with bb.utils.contains count by their results", "statement": "A change of a variable that a text only tests with bb.utils.contains changes what is hashed for the text exactly if the result of one of the tests changes.", "quantifier": "every text, every two values", "why_tests_cant": "all values and items", "anchors": ["bitbake/lib/bb/data.py:build_dependencies"]}
{"id": "C102", "title": "Task hashes do not depend on the order of sets", "statement": "Whatever the order in which the tasks and the dependencies of each task are visited, every task gets a hash, without an error, and always the same one.", "quantifier": "every build without cycles and every order", "why_tests_cant": "all graphs and all orders of iteration", "anchors": ["bitbake/lib/bb/runqueue.py:RunQueueData.prepare", "bitbake/lib/bb/siggen.py:SignatureGeneratorBasic.get_taskhash"]}
{"id": "C103", "title": "A task hash depends only on the task and what counts for it", "statement": "Two builds in which a task and everything that counts for its hash are the same give it the same hash; a task that is locked to a hash keeps it, whatever changes below it.", "quantifier": "every two builds and every task", "why_tests_cant": "all graphs and changes", "anchors": ["bitbake/lib/bb/siggen.py:SignatureGeneratorBasic.get_taskhash", "meta/lib/oe/sstatesig.py:SignatureGeneratorOEBasicHashMixIn.get_taskhash"]}
{"id": "C104", "title": "Every change below a task changes its hash", "statement": "If the base hash, the files or the taint of a task change, then every task for whose hash it counts, directly or not, gets another hash; so does a new run of a task that always runs.", "quantifier": "every graph, every two tasks, every change", "why_tests_cant": "all paths in all graphs", "anchors": ["bitbake/lib/bb/siggen.py:SignatureGeneratorBasic.prep_taskhash", "bitbake/lib/bb/siggen.py:SignatureGeneratorBasic.get_taskhash"]}
{"id": "C105", "title": "A signature file reproduces the task hash it records", "statement": "The task hash that is made again from the record in a signature file is the one of the task.", "quantifier": "every task, files, taints and dependencies", "why_tests_cant": "all graphs, names and taints", "anchors": ["bitbake/lib/bb/siggen.py:SignatureGeneratorBasic.dump_sigtask", "bitbake/lib/bb/siggen.py:calc_taskhash"]}
{"id": "C106", "title": "A dependency is left out of the hash only for a stated reason", "statement": "Dependencies on tasks of the same recipe always count; a dependency on another recipe is left out only for do_rm_work, because of a list of the user, for a package group of all architectures, or for a kernel whose modules are recommended. do_rm_work has no dependencies and do_kernel_configme may leave one out.", "quantifier": "every pair of tasks and all lists", "why_tests_cant": "all names and lists", "anchors": ["meta/lib/oe/sstatesig.py:sstate_rundepfilter"]}
{"id": "C107", "title": "Locked signatures are used for all tasks except those of unlocked recipes and what depends on them", "statement": "A task has the hash it is locked to unless its recipe is unlocked or depends on one that is, whatever the order in which the tasks are visited.", "quantifier": "every build, list of locks and unlocked recipes", "why_tests_cant": "all graphs, names and orders", "anchors": ["meta/lib/oe/sstatesig.py:SignatureGeneratorOEBasicHashMixIn.get_taskhash"]}
{"id": "C108", "title": "Names of archives in the shared state cache fit and do not clash", "statement": "The name of an archive and the name of its signature file fit the limit of file systems, one is the other with .siginfo at the end, archives of different tasks or with different hashes have different names even where names are cut, and there is a name whenever the fields that may not be cut leave room for one.", "quantifier": "every specification, hash and task", "why_tests_cant": "all lengths of all fields", "anchors": ["meta/classes-global/sstate.bbclass:generate_sstatefn"]}
{"id": "C109", "title": "An archive is looked for under the name under which it was written", "statement": "The place where the cache is asked for the archive of a task is the place where the task with this hash writes it.", "quantifier": "every recipe, task and hash", "why_tests_cant": "all recipes and tasks", "anchors": ["meta/classes-global/sstate.bbclass:sstate_checkhashes", "meta/classes-global/sstate.bbclass:sstate_state_fromvars", "meta/classes-global/sstate.bbclass:generate_sstatefn"]}
{"id": "C110", "title": "An archive is skipped exactly if nothing that is wanted needs it", "statement": "The archive of a task is left out exactly if every other task that depends on it is not wanted itself, or is one of the tasks that never need what they depend on.", "quantifier": "every task without special rules and every set of tasks that depend on it", "why_tests_cant": "all sets of tasks", "anchors": ["meta/classes-global/sstate.bbclass:setscene_depvalid"]}
{"id": "C111", "title": "An archive in the shared state cache is always whole", "statement": "Whoever opens an archive in the cache, at any moment, reads the whole of what some task packed or a mirror has, however many tasks of any number of builds write the archive at the same time, and wherever they fail or are killed.", "quantifier": "every number of processes, every interleaving, every failure and crash point", "why_tests_cant": "all schedules and crash points", "anchors": ["meta/classes-global/sstate.bbclass:sstate_create_package", "meta/classes-global/sstate.bbclass:sstate_unpack_package"]}
{"id": "C112", "title": "A task that has written its archive has an archive in the cache", "statement": "When writing the archive of a task has succeeded, the archive is there, and no temporary file is left.", "quantifier": "every number of processes and every interleaving", "why_tests_cant": "all schedules", "anchors": ["meta/classes-global/sstate.bbclass:sstate_create_package"]}
{"id": "C113", "title": "Installing into the deploy directory never overwrites another recipe's file", "statement": "When a task installs its files into a shared directory such as the deploy directory, and another recipe's file or directory is where the task has a file, the build stops, unless SSTATE_ALLOW_OVERLAP_FILES allows it; wherever the installation is interrupted, the files of others are as they were. After it, everything that the task has is there.", "quantifier": "every tree of files, every content of the shared directory, every point at which the installation stops", "why_tests_cant": "all trees, states and crash points", "anchors": ["meta/classes-global/sstate.bbclass:sstate_install", "meta/lib/oe/path.py:copyhardlinktree"]}
{"id": "C114", "title": "Cleaning a task removes what it installed, also after a crash", "statement": "Wherever the installation of a task's files stops, cleaning the task leaves none of its files and links in the shared directory. Its directories are removed, unless something is in them that the task has not put there.", "quantifier": "every tree of files, every content of the shared directory, every point at which the installation stops", "why_tests_cant": "all trees, states and crash points", "anchors": ["meta/classes-global/sstate.bbclass:sstate_install", "meta/classes-global/sstate.bbclass:sstate_clean_manifest"]}
{"id": "C115", "title": "Cleaning a task removes nothing of others", "statement": "Cleaning a task changes nothing in the shared directory at paths that the task does not have, wherever its installation stopped and whatever was installed since.", "quantifier": "every tree of files, every content of the shared directory, every point at which the installation stops", "why_tests_cant": "all trees, states and crash points", "anchors": ["meta/classes-global/sstate.bbclass:sstate_install", "meta/classes-global/sstate.bbclass:sstate_clean_manifest"]}
{"id": "C116", "title": "A task whose stamp is there has its files", "statement": "After every history of builds of different versions, machines and sets of recipes, some of them interrupted, a task with a stamp that says that it has run has its manifest, and so its files, in the deploy directory: what removes the files of other versions and of recipes that are gone takes nothing from it.", "quantifier": "every history of builds, each of any number of configurations, and tasks that run, stop or are cleaned", "why_tests_cant": "all histories and all names", "anchors": ["meta/classes-global/sstate.bbclass:sstate_install", "meta/classes-global/sstate.bbclass:sstate_clean", "meta/classes-global/sstate.bbclass:sstate_eventhandler_reachablestamps", "meta/conf/bitbake.conf:STAMP", "meta/classes-recipe/image.bbclass:SSTATE_MANIFESTS"]}
{"id": "C117", "title": "Parsing removes exactly what belongs to recipes that are gone", "statement": "When the recipes have been parsed, the files of those tasks are removed whose recipe or version is not there any more and that this machine has had in an earlier build; nothing else is removed. With one machine, only files of recipes that are there are left.", "quantifier": "every history of builds, every set of recipes after it", "why_tests_cant": "all histories and all names", "anchors": ["meta/classes-global/sstate.bbclass:sstate_eventhandler_reachablestamps"]}
{"id": "C118", "title": "References expand compositionally", "statement": "If the values of all variables are texts with properly nested references, then a text with such references expands to its meaning: the name of a reference is expanded first, a reference to a set variable becomes the meaning of its value, and a reference to a variable that is not set stays. This holds after every history of writes and reads.", "quantifier": "every set of variables, every text, every history of writes and reads", "why_tests_cant": "all texts, nesting depths and histories", "anchors": ["bitbake/lib/bb/data_smart.py:DataSmart.expandWithRefs", "bitbake/lib/bb/data_smart.py:VariableParse.var_sub", "bitbake/lib/bb/data_smart.py:DataSmart.getVarFlag"]}
{"id": "C119", "title": "Expansion leaves no reference to a variable that is set", "statement": "Whatever the text and the values are, when reading a variable or expanding a text succeeds, the result has no reference ${NAME} to a variable that is set.", "quantifier": "every text, all values, every history", "why_tests_cant": "values can contain parts of references that only together make one", "anchors": ["bitbake/lib/bb/data_smart.py:DataSmart.expandWithRefs", "bitbake/lib/bb/data_smart.py:VariableParse.var_sub", "bitbake/lib/bb/data_smart.py:DataSmart.getVarFlag"]}
{"id": "C120", "title": "Expansion ends", "statement": "Expanding a text ends, with a value or with an error: variables that refer to each other in a circle are an error.", "quantifier": "every text and all values, every length of the circle", "why_tests_cant": "all lengths of circles; values with parts of references", "anchors": ["bitbake/lib/bb/data_smart.py:DataSmart.expandWithRefs", "bitbake/lib/bb/data_smart.py:VariableParse.var_sub", "bitbake/lib/bb/data_smart.py:DataSmart.getVarFlag"]}
{"id": "C121", "title": "Reading does not change what is read", "statement": "What a variable reads as depends on the values of the variables only, and not on what has been read before: the cache of expanded values is never stale.", "quantifier": "every history of setVar, weak defaults, delVar, getVar and expand", "why_tests_cant": "all histories", "anchors": ["bitbake/lib/bb/data_smart.py:DataSmart.getVarFlag", "bitbake/lib/bb/data_smart.py:DataSmart.setVar", "bitbake/lib/bb/data_smart.py:DataSmart.delVar", "bitbake/lib/bb/data_smart.py:DataSmart.setVarFlag"]}
{"id": "C122", "title": "The list of source packages is exact", "statement": "For every description of packages in the format of apt, the list that is derived from it names the source and the source version of each package, and nothing else: the name and version of the package itself where no source is given, and the given ones otherwise; each once.", "quantifier": "every list of packages and their fields", "why_tests_cant": "all descriptions, with all orders of the other fields", "anchors": ["meta/classes-recipe/deb-dl-dir.bbclass:debsrc_source_version_filter"]}
{"id": "C123", "title": "The sources of what is installed are downloaded or reported", "statement": "After downloading sources, the source of every package in the cache that apt knows has arrived, or there was a warning about it. A source whose .dsc file is there is complete, also if earlier runs were stopped.", "quantifier": "every set of packages, every history of runs and stops", "why_tests_cant": "all crash points and all sets of packages", "anchors": ["meta/classes-recipe/deb-dl-dir.bbclass:debsrc_download"]}
{"id": "C124", "title": "Downloaded packages are kept and shared", "statement": "A package that was downloaded for one root file system is available to every later one with the same content, is not downloaded again, and is never replaced or removed by exporting; whatever is in the cache was downloaded by some root file system; importing changes nothing but the packages in the cache.", "quantifier": "every history of imports, exports and changes by apt, in any number of root file systems", "why_tests_cant": "all histories", "anchors": ["meta/classes-recipe/deb-dl-dir.bbclass:deb_dl_dir_import", "meta/classes-recipe/deb-dl-dir.bbclass:deb_dl_dir_export"]}
{"id": "C125", "title": "Packages of the layer stay out of the download cache", "statement": "Packages that were built locally are not exported to the cache of downloads, so that a later build does not use an outdated one.", "quantifier": "every set of local packages and every file of apt", "why_tests_cant": "all names and contents; depends on which variables a quoted script sees", "anchors": ["meta/classes-recipe/deb-dl-dir.bbclass:deb_dl_dir_export"]}
{"id": "C126", "title": "Deploying replaces exactly the packages of the recipe", "statement": "After a recipe's packages are deployed, the local repository has exactly these files for them, whatever versions and files it had before; other packages are as they were; and if a deployment is stopped anywhere, the next one gives the result it would have given.", "quantifier": "every content of the repository, every set of packages, every crash point", "why_tests_cant": "all contents and crash points", "anchors": ["meta/classes-recipe/dpkg-base.bbclass:do_deploy_deb", "meta/classes-recipe/dpkg-base.bbclass:deb_clean", "meta/classes-recipe/repository.bbclass:repo_add_packages", "meta/classes-recipe/repository.bbclass:repo_del_package"]}
{"id": "C127", "title": "The offline repository has what was downloaded", "statement": "Caching always succeeds, in whatever order files are found and whatever was cached before; then each downloaded package is in the repository in this version, or in a newer one that was downloaded too, with the downloaded content; and the repository has nothing else.", "quantifier": "every history of caching and every set of downloaded packages", "why_tests_cant": "all histories and orders", "anchors": ["meta/recipes-devtools/base-apt/base-apt.bb:populate_base_apt", "meta/classes-recipe/repository.bbclass:repo_contains_package", "meta/classes-recipe/repository.bbclass:repo_add_packages", "meta/classes-recipe/repository.bbclass:repo_del_package"]}
{"id": "C128", "title": "The right version of a recipe is used", "statement": "Of the files of one recipe the one is used that the configuration asks for: a required version or none; a preferred version if there is one; otherwise the newest version with the highest DEFAULT_PREFERENCE in the layer with the highest priority. Of several files that fit, the best is used.", "quantifier": "every set of recipe files with any layers, preferences and versions, every value of the variables", "why_tests_cant": "all sets of files and all texts of versions", "anchors": ["bitbake/lib/bb/providers.py:findBestProvider", "bitbake/lib/bb/providers.py:findPreferredProvider", "bitbake/lib/bb/providers.py:findLatestProvider", "bitbake/lib/bb/providers.py:sortPriorities", "bitbake/lib/bb/providers.py:versionVariableMatch", "bitbake/lib/bb/providers.py:preferredVersionMatch"]}
{"id": "C129", "title": "Each recipe that provides something is offered once", "statement": "For an item, one file of each recipe that provides it is offered: the one that is chosen for this recipe. The preferred provider comes first and is the only choice, otherwise the recipe with the name of the item comes first. The order in which files are found does not matter.", "quantifier": "every set of recipe files, every item, every configuration", "why_tests_cant": "all sets of files in all orders", "anchors": ["bitbake/lib/bb/providers.py:_filterProviders", "bitbake/lib/bb/providers.py:filterProviders"]}
{"id": "C130", "title": "Providers at run time", "statement": "For a package, the same recipe files are offered as at build time; the preferred one comes first and is the only choice; if several are preferred, this is reported.", "quantifier": "every set of recipe files, every item, every configuration", "why_tests_cant": "all sets of files; the loop changes the list over which it goes", "anchors": ["bitbake/lib/bb/providers.py:filterProvidersRunTime"]}
{"id": "C131", "title": "What is to be built has all it needs", "statement": "When the dependencies have been resolved, every recipe that is to be built has, for everything that it needs, a recipe that may be used for it and that is to be built itself; and what the user asked for is provided, or there was an error.", "quantifier": "every set of recipes and dependencies, with circles and alternatives, every history of targets", "why_tests_cant": "all dependency graphs, and all orders in which recipes fail", "anchors": ["bitbake/lib/bb/taskdata.py:add_provider", "bitbake/lib/bb/taskdata.py:add_provider_internal", "bitbake/lib/bb/taskdata.py:add_rprovider", "bitbake/lib/bb/taskdata.py:add_tasks", "bitbake/lib/bb/taskdata.py:add_unresolved", "bitbake/lib/bb/taskdata.py:fail_fn", "bitbake/lib/bb/taskdata.py:remove_buildtarget", "bitbake/lib/bb/taskdata.py:remove_runtarget"]}
{"id": "C132", "title": "Recipes are dropped for a cause, and hopeless ones always", "statement": "A recipe is dropped exactly if nobody can build what it needs: there is a chain of needs from it to a name for which there is no recipe, over all alternatives.", "quantifier": "every set of recipes and dependencies, every history of targets", "why_tests_cant": "all dependency graphs", "anchors": ["bitbake/lib/bb/taskdata.py:fail_fn", "bitbake/lib/bb/taskdata.py:remove_buildtarget", "bitbake/lib/bb/taskdata.py:remove_runtarget", "bitbake/lib/bb/taskdata.py:add_unresolved"]}
{"id": "C133", "title": "Resolving ends", "statement": "Resolving dependencies comes to an end for every set of recipes, also if they depend on each other in circles, with a recursion that is no deeper than there are recipes.", "quantifier": "every set of recipes and dependencies, every history of targets", "why_tests_cant": "termination", "anchors": ["bitbake/lib/bb/taskdata.py:add_unresolved", "bitbake/lib/bb/taskdata.py:fail_fn"]}
{"id": "C134", "title": "A chroot mounts exactly what the recipe declares", "statement": "A chroot in which a package is built, an image command runs or sources are fetched has the mounts of the system and, each once, those that the recipe declares, and no others, whatever other tasks set up chroots at the same time.", "quantifier": "every recipe, every list of mounts, every interleaving with other tasks, every earlier use of the name", "why_tests_cant": "all interleavings and histories", "anchors": ["meta/classes-recipe/sbuild.bbclass:schroot_create_configs", "meta/classes-recipe/sbuild.bbclass:insert_mounts", "meta/classes-recipe/sbuild.bbclass:remove_mounts", "meta/classes-recipe/dpkg-base.bbclass:dpkg_schroot_create_configs"]}
{"id": "C135", "title": "Nothing of a chroot is left behind", "statement": "When a task that uses a chroot ends, also with an error at any point, the configuration of the chroot has been removed from the host.", "quantifier": "every task with a chroot, every point at which it can fail", "why_tests_cant": "all failure points", "anchors": ["meta/classes-recipe/sbuild.bbclass:schroot_delete_configs", "meta/classes-recipe/dpkg-base.bbclass:do_dpkg_build", "meta/classes-recipe/image-tools-extension.bbclass:imager_run", "meta/classes-recipe/dpkg-source.bbclass:do_fetch_common_source", "meta/lib/aptsrc_fetcher.py:AptSrc"]}
{"id": "C136", "title": "Exported variables reach the package build", "statement": "Variables that the recipe exports or that are listed in SBUILD_PASSTHROUGH_ADDITIONS have the same value in the build of the package, and variables of the host are not passed on, except for the path and the proxies.", "quantifier": "every environment, every list of variables, every value", "why_tests_cant": "all texts; they go through sed, grep and Perl", "anchors": ["meta/classes-recipe/sbuild.bbclass:sbuild_export", "meta/classes-recipe/sbuild.bbclass:sbuild_add_env_filter", "meta/classes-recipe/dpkg.bbclass:dpkg_runbuild", "meta/classes-recipe/dpkg.bbclass:expand_sbuild_pt_additions"]}
{"id": "C137", "title": "A build sees the local repository as it was", "statement": "The copy of the local repository that a package is built against lists exactly the packages that were deployed when it was taken, and has their content from that time, whatever is deployed or removed while the build is running.", "quantifier": "every history of deploying, removing and copying, also with copies that were stopped", "why_tests_cant": "all histories; files are shared by links", "anchors": ["meta/classes-recipe/dpkg-base.bbclass:do_local_isarapt", "meta/classes-recipe/dpkg-base.bbclass:do_deploy_deb", "meta/classes-recipe/dpkg-base.bbclass:deb_clean"]}
{"id": "C138", "title": "A line of a configuration file means one thing", "statement": "A line of a configuration file that is an assignment, with the variable, the flag, the operator and the value as written, is read as exactly that; a line is read as an assignment only if it can be written as one, in one way; the other statements are recognized by their first word; and any other line is an error.", "quantifier": "every line, every variable, flag, operator and value", "why_tests_cant": "all texts; the syntax is a regular expression with choices and shortest matches", "anchors": ["bitbake/lib/bb/parse/parse_py/ConfHandler.py:__config_regexp__", "bitbake/lib/bb/parse/parse_py/ConfHandler.py:feeder"]}
{"id": "C139", "title": "Comments and continued lines", "statement": "Lines that end with a backslash are joined with the next one, blank lines and comments are ignored, and what a file means does not depend on how its statements are spread over lines; a file that ends within a continued line, or has a comment in the middle of a statement, is rejected.", "quantifier": "every file, every way to split its statements into lines", "why_tests_cant": "all files", "anchors": ["bitbake/lib/bb/parse/parse_py/ConfHandler.py:handle", "bitbake/lib/bb/parse/parse_py/ConfHandler.py:feeder"]}
{"id": "C140", "title": "A recipe is what its lines say", "statement": "A recipe or class gives exactly the statements that are written in it, in their order, with the lines of functions and definitions as they are written, apart from white space at their ends; a file that cannot be read in this way, with a function that is not closed, a statement that is not finished or a comment in the middle of a statement, is rejected.", "quantifier": "every file, every line", "why_tests_cant": "all files; the reader is a state machine over the lines", "anchors": ["bitbake/lib/bb/parse/parse_py/BBHandler.py:feeder", "bitbake/lib/bb/parse/parse_py/BBHandler.py:get_statements"]}
{"id": "C141", "title": "Reading a file does not depend on other files", "statement": "What a recipe or class gives does not depend on the files that were read before it by the same process, also if those had errors.", "quantifier": "every sequence of files, with or without errors", "why_tests_cant": "all histories; the state of the reader is global", "anchors": ["bitbake/lib/bb/parse/parse_py/BBHandler.py:handle", "bitbake/lib/bb/parse/parse_py/BBHandler.py:feeder", "bitbake/lib/bb/parse/parse_py/BBHandler.py:get_statements"]}
{"id": "C142", "title": "addtask puts tasks before and after those that are named", "statement": "A line addtask names a task, the tasks that run after it and the tasks that run before it, and these are the words that are written after before and after, whatever the names of the tasks are.", "quantifier": "every line, every list of names", "why_tests_cant": "all names", "anchors": ["bitbake/lib/bb/parse/parse_py/BBHandler.py:__addtask_regexp__"]}
{"id": "C143", "title": "Tasks run in the order that was declared", "statement": "After any sequence of addtask and deltask, the tasks of a recipe are those that were added and not deleted since, and a task waits for exactly those tasks of its recipe for which this was declared, by either of the two, and not taken back by deleting one of them.", "quantifier": "every sequence of addtask and deltask lines", "why_tests_cant": "all histories", "anchors": ["bitbake/lib/bb/build.py:addtask", "bitbake/lib/bb/build.py:deltask", "bitbake/lib/bb/build.py:add_tasks", "bitbake/lib/bb/taskdata.py:TaskData.add_tasks"]}
{"id": "C144", "title": "A class is inherited once", "statement": "However often and from wherever a class is inherited while a recipe is read, its statements are evaluated exactly once, at the place where it is inherited first; after a line that inherits classes all of them have been evaluated, and one that does not exist is an error; reading comes to an end, also if classes inherit each other.", "quantifier": "every set of files, every graph of classes and of inclusions", "why_tests_cant": "all graphs of files, of any size and depth, with circles", "anchors": ["bitbake/lib/bb/parse/parse_py/BBHandler.py:inherit", "bitbake/lib/bb/parse/parse_py/BBHandler.py:handle", "bitbake/lib/bb/parse/parse_py/ConfHandler.py:include", "bitbake/lib/bb/parse/ast.py:StatementGroup.eval"]}
{"id": "C145", "title": "The name of a variant says what it is of", "statement": "The names that are given to the variants of a recipe in a configuration tell its file, its class and its configuration, and different variants have different names.", "quantifier": "every file, class and configuration", "why_tests_cant": "all names; they are put together from strings that may have the same separators", "anchors": ["bitbake/lib/bb/cache.py:virtualfn2realfn", "bitbake/lib/bb/cache.py:realfn2virtual", "bitbake/lib/bb/cache.py:variant2virtual"]}
{"id": "C146", "title": "What the parsers send is what is received", "statement": "The dependencies of variables that parsing processes send, and those that are stored in the cache, are read back as they were, although each set is sent only once by each process and with a number afterwards; in whatever order the messages of different processes come.", "quantifier": "every number of processes, every sequence of recipes, every interleaving", "why_tests_cant": "all schedules and histories of shared numbers", "anchors": ["bitbake/lib/bb/cache.py:SiggenRecipeInfo._save", "bitbake/lib/bb/cache.py:SiggenRecipeInfo._restore"]}
{"id": "C147", "title": "The cache of recipes gives nothing old", "statement": "If the stored result of reading a recipe is taken, reading the recipe and its variants again would give the same, whatever was changed in the files that were looked at, or looked for, and also if they were changed while the recipe was read; and if nothing was changed it is taken.", "quantifier": "every recipe, every history of the files, every moment at which files are read", "why_tests_cant": "all histories and races", "anchors": ["bitbake/lib/bb/cache.py:Cache.cacheValid", "bitbake/lib/bb/cache.py:Cache.cacheValidUpdate", "bitbake/lib/bb/cache.py:Cache.parse", "bitbake/lib/bb/parse/__init__.py:mark_dependency", "bitbake/lib/bb/fetch2/__init__.py:get_checksum_file_list"]}
{"id": "C148", "title": "The patches of SRC_URI are applied and nothing else", "statement": "An item of SRC_URI is applied as a patch if and only if it has the name of a patch, compressed or not, or its parameter says so, it is no directory, and the limits that its parameters set for date, revision and version allow it; patches are in the order of SRC_URI, each once.", "quantifier": "every SRC_URI, all names and parameters, every date, revision and version", "why_tests_cant": "all names with dots and endings, and all combinations of parameters", "anchors": ["meta/lib/oe/patch.py:patch_path", "meta/lib/oe/patch.py:src_patches", "meta/lib/oe/patch.py:should_apply"]}
{"id": "C149", "title": "Patches are applied once and in order", "statement": "If do_patch succeeds, the sources are the unpacked ones with all patches, each applied once and in the order of SRC_URI, whatever was applied before; if a patch does not apply, do_patch fails.", "quantifier": "every list of patches, every result of earlier runs, every kind of tree and of patch", "why_tests_cant": "every history of the directory", "anchors": ["meta/classes-recipe/patch.bbclass:patch_do_patch", "meta/lib/oe/patch.py:QuiltTree", "meta/lib/oe/patch.py:PatchTree", "meta/lib/oe/patch.py:UserResolver.Resolve"]}
{"id": "C150", "title": "do_patch can be repeated", "statement": "If do_patch is ended at any moment, or fails, and is started again, with the same or with other patches, the result is that for unpacked sources.", "quantifier": "every list of patches before and after, every moment at which it is ended", "why_tests_cant": "all crash points", "anchors": ["meta/classes-recipe/patch.bbclass:patch_do_patch", "meta/lib/oe/patch.py:QuiltTree.Clean", "meta/lib/oe/patch.py:QuiltTree.Import"]}
{"id": "C151", "title": "Events call the handlers that are there for them", "statement": "For an event of a recipe, exactly those handlers of the recipe and of its configuration are called that were declared for the event, each once and in the order in which they were registered, whatever other recipes and configurations the process has read before.", "quantifier": "every history of configurations and recipes read by a process, all handlers and their event masks, all events", "why_tests_cant": "all histories of a process with global tables", "anchors": ["bitbake/lib/bb/event.py:register", "bitbake/lib/bb/event.py:remove", "bitbake/lib/bb/event.py:fire_class_handlers", "bitbake/lib/bb/parse/ast.py:finalize", "bitbake/lib/bb/cookerdata.py:parseConfigurationFiles"]}
{"id": "C152", "title": "The name of a file tells the name and version of the recipe", "statement": "A file with the name name_version_revision.bb is a recipe with this name, version and revision, with defaults for what is left out; a name with more parts is an error; whatever was asked before.", "quantifier": "every directory and name, every history of questions", "why_tests_cant": "all names and all histories of the stored answers", "anchors": ["bitbake/lib/bb/parse/__init__.py:vars_from_file", "meta/conf/bitbake.conf:PN"]}
{"id": "C153", "title": "Each variant is made of the recipe alone", "statement": "For every class in BBCLASSEXTEND there is one variant; it is what the recipe is when it inherits that class, without anything that was done for other variants, with the class behind its name or with the argument of the class; and if only one variant is read, it is the same as if all were.", "quantifier": "every recipe, every list of classes and arguments, whatever classes and anonymous functions do", "why_tests_cant": "all recipes and lists of classes", "anchors": ["bitbake/lib/bb/parse/ast.py:multi_finalize", "bitbake/lib/bb/parse/ast.py:_create_variants", "bitbake/lib/bb/cookerdata.py:parseRecipeVariants"]}
{"id": "C154", "title": "Messages between cooker, worker and tasks arrive whole, once and in order", "statement": "Every event of a task reaches the cooker once, unchanged and in the order in which the task sent it, before the exit code of the task; every item that the cooker sends reaches the worker once, unchanged and in order; in whatever pieces the pipes are read and written and whatever other tasks do at the same time.", "quantifier": "every sequence of messages, every content of them, every division into pieces of reads and writes, every interleaving of tasks, every point at which a task is stopped", "why_tests_cant": "all contents, all divisions into pieces and all interleavings", "anchors": ["bitbake/bin/bitbake-worker:runQueueWorkerPipe.read", "bitbake/bin/bitbake-worker:BitbakeWorker.handle_item", "bitbake/bin/bitbake-worker:BitbakeWorker.process_waitpid", "bitbake/bin/bitbake-worker:worker_flush", "bitbake/lib/bb/runqueue.py:runQueuePipe.read", "bitbake/lib/bb/runqueue.py:RunQueue.send_pickled_data"]}
{"id": "C155", "title": "The changelog of a package is made anew from its sources each time", "statement": "The changelog of a package that Isar builds has an entry for the recipe, in which the first mark for the version of the sources is replaced by that version and whose date is a little after theirs, then the changelog of the sources and then that of the recipe; or it is that of the recipe alone if this begins with the version. Doing it again, also after having been stopped anywhere, gives the same changelog.", "quantifier": "every changelog of sources and of the recipe, every version, every history of runs and of points at which they are stopped", "why_tests_cant": "all changelogs, all versions and all histories of interrupted runs", "anchors": ["meta/classes-recipe/debianize.bbclass:deb_add_changelog"]}
{"id": "C156", "title": "Lists in the control file have the items of the variable", "statement": "A list in the control file, such as the dependencies, has the items that the variable has between commas, in order, without white space around them and without empty ones, whatever white space and however many commas the variable has.", "quantifier": "every text of the variable", "why_tests_cant": "all texts", "anchors": ["meta/classes-global/base.bbclass:deb_list_beautify"]}
{"id": "C157", "title": "A task that runs twice in one build is an error, and nothing else is", "statement": "It is an error to start a task if and only if it was started before in this build and did not fail since, whatever earlier builds left behind and whatever other tasks do.", "quantifier": "every sequence of events of a build, every set of files that earlier builds left", "why_tests_cant": "all orders of events and all leftovers", "anchors": ["meta/classes-global/isar-events.bbclass:build_started", "meta/classes-global/isar-events.bbclass:task_started", "meta/classes-global/isar-events.bbclass:task_failed", "meta/classes-global/isar-events.bbclass:task_once_stamp"]}
{"id": "C158", "title": "At the end of a build nothing stays mounted below the work directory", "statement": "When a build ends, all that is mounted below the work directory is unmounted, however it is nested, and nothing that is mounted elsewhere is; with ISAR_FAIL_ON_CLEANUP all is left and each mount is an error.", "quantifier": "every table of mounts, every name of directories", "why_tests_cant": "all tables of mounts and all names", "anchors": ["meta/classes-global/isar-events.bbclass:build_completed"]}
{"id": "C159", "title": "Different images of containers have different files", "statement": "Two images of containers that a recipe names are kept in different files, when they are fetched, in the package and on the device; each file has the image that the list names.", "quantifier": "every pair of names, tags, digests and architectures", "why_tests_cant": "all names, tags and digests", "anchors": ["meta/lib/container_fetcher.py:Container.urldata_init", "meta/lib/container_fetcher.py:Container.unpack", "meta/classes-recipe/container-loader.bbclass:do_install_fetched_containers"]}
{"id": "C160", "title": "Images of containers are loaded once, whenever the device is switched off", "statement": "After a run of the loader that was not stopped all images of the list are known to the engine, however often earlier runs were stopped and wherever; no image is loaded twice and no file is deleted before its image is loaded.", "quantifier": "every list of images, every history of runs, every point at which a run is stopped", "why_tests_cant": "all lists, all histories and all points of interruption", "anchors": ["meta/recipes-support/container-loader/files/container-loader.sh.tmpl", "meta/classes-recipe/container-loader.bbclass:do_install_fetched_containers"]}
{"id": "C161", "title": "Files that are to be added to a root file system are added to it", "statement": "After the function has run each file that is listed is in the root file system with the content of its source, or is empty if it has none; nothing else changes, neither there nor on the host, and running it again changes nothing.", "quantifier": "every list of files, every state of the root file system and of the host", "why_tests_cant": "all lists and all states", "anchors": ["meta/classes-recipe/rootfs-add-files.bbclass:rootfs_add_files"]}
{"id": "C162", "title": "Locales that are generated are not purged", "statement": "The configuration has each locale of LOCALE_GEN once and in an order that does not depend on how the variable is written; each of them is on the list of locales that are kept, with its language and without its encoding, and nothing else is.", "quantifier": "every text of LOCALE_GEN", "why_tests_cant": "all texts", "anchors": ["meta/classes-recipe/image-locales-extension.bbclass:get_locale_gen", "meta/classes-recipe/image-locales-extension.bbclass:get_nopurge"]}
{"id": "C163", "title": "The disk that is grown is the one of the root file system", "statement": "For each name of a disk and each number of a partition, if the root file system is on that partition the disk that is worked on is that disk; a disk without partitions is told from one with partitions.", "quantifier": "every name of a disk and every number of a partition", "why_tests_cant": "all names and numbers", "anchors": ["meta/recipes-support/expand-on-first-boot/files/expand-last-partition.sh"]}
{"id": "C164", "title": "Only the last partition changes its size", "statement": "The partition table that is written when the last partition is grown has the same partitions as before with the same fields, except that the last one, and a container of logical partitions, have no size, so that they grow; from the header only the end of the disk is left out.", "quantifier": "every partition table, with any number of partitions and any names", "why_tests_cant": "all tables, all names of partitions and all fields", "anchors": ["meta/recipes-support/expand-on-first-boot/files/expand-last-partition.sh"]}
{"id": "C165", "title": "Growing the last partition survives a loss of power", "statement": "Whenever the device is switched off while the last partition is grown, after some later boot the partition and its file system fill the disk and the first block of the disk is the one of the image.", "quantifier": "every history of boots, every point at which one is interrupted", "why_tests_cant": "all histories and all points of interruption", "anchors": ["meta/recipes-support/expand-on-first-boot/files/expand-last-partition.sh", "meta/recipes-support/expand-on-first-boot/files/expand-on-first-boot.service"]}
{"id": "C166", "title": "The installer does not offer the disk it runs from", "statement": "A disk on which the root file system of the running installer lies, directly, on a partition or through further devices, is not offered as a target; with a user only a device that is offered is written to, after they have agreed.", "quantifier": "every set of devices, however they are stacked, every name", "why_tests_cant": "all sets of devices and all stacks", "anchors": ["meta-isar/recipes-installer/deploy-image/files/usr/bin/sys_api.sh:sys_discover_target_devices", "meta-isar/recipes-installer/deploy-image/files/usr/bin/deploy-image-wic.sh:flow_run_attended"]}
{"id": "C167", "title": "The installer overwrites data only if it was told to", "statement": "A device whose beginning is not empty is written to only if the user has agreed to that or, without a user, if the configuration says OVERWRITE; ABORT never does. What is written is an image that exists.", "quantifier": "every file of answers, every kernel command line, every answer of the user, every state of the devices", "why_tests_cant": "all configurations and all answers", "anchors": ["meta-isar/recipes-installer/deploy-image/files/usr/lib/deploy-image-wic/handle-config.sh", "meta-isar/recipes-installer/deploy-image/files/usr/bin/deploy-image-wic.sh:flow_validate_target_overwrite_policy", "meta-isar/recipes-installer/deploy-image/files/usr/bin/deploy-image-wic.sh:flow_run"]}
{"id": "C168", "title": "The installer does not overwrite its boot device without a user", "statement": "Without a user, whatever devices the configuration names, the device from which the installer was started is not written to.", "quantifier": "every file of answers, every kernel command line, every set of devices", "why_tests_cant": "all configurations and all sets of devices", "anchors": ["meta-isar/recipes-installer/deploy-image/files/usr/lib/deploy-image-wic/handle-config.sh"]}
{"id": "C169", "title": "The installer tells a success if and only if the image was written", "statement": "The user is told that the installation was successful, and the status is 0, if and only if the image was written to the device without an error.", "quantifier": "every configuration, every answer of the user, every outcome of copying, other installers running or not", "why_tests_cant": "all configurations, answers and schedules of installers", "anchors": ["meta-isar/recipes-installer/deploy-image/files/usr/bin/sys_api.sh:sys_install_image_with_lock", "meta-isar/recipes-installer/deploy-image/files/usr/bin/deploy-image-wic.sh:flow_run"]}
{"id": "C170", "title": "The installer offers all other disks", "statement": "Each disk on which the running installer does not lie is offered as a target, unless it is part of an array.", "quantifier": "every set of devices and every name", "why_tests_cant": "all sets of devices and all names", "anchors": ["meta-isar/recipes-installer/deploy-image/files/usr/bin/sys_api.sh:sys_discover_target_devices"]}
{"id": "C171", "title": "A shell task has the values of exported variables", "statement": "When the script of a shell task runs, each variable that the recipe exports has the value that it has in the recipe, with blanks for ends of lines; a variable that is not to be exported is unset, and nothing else is set or run before the functions of the task.", "quantifier": "every list of variables, every value with any characters", "why_tests_cant": "all values", "anchors": ["bitbake/lib/bb/data.py:emit_var"]}
{"id": "C172", "title": "A shell task has all functions it needs", "statement": "The script of a shell task has the task and exactly the shell functions that it calls, directly or through other shell functions, each once, however functions call each other.", "quantifier": "every set of functions, every relation of calls, cycles included", "why_tests_cant": "all relations of calls", "anchors": ["bitbake/lib/bb/data.py:emit_func"]}
{"id": "C173", "title": "A task counts as run only if all of its functions ran", "statement": "The functions before a task, the task and the functions after it are called in this order, none after one that fails. The task is told to have succeeded and gets its file only if all were called and none failed; its process ends with 0 if and only if it is told to have succeeded, and otherwise the failure is told, once.", "quantifier": "every task, every outcome of each function, of handlers, of files and of fakeroot", "why_tests_cant": "all combinations of outcomes", "anchors": ["bitbake/lib/bb/build.py:_exec_task", "bitbake/lib/bb/build.py:exec_task", "bitbake/bin/bitbake-worker:fork_off_task"]}
{"id": "C174", "title": "A task that counts as run was last run as it is now", "statement": "After a task has run, it counts as run for its hash and for no other one; files of other tasks and recipes, and data of signatures, are not touched. Whatever runs there were, if a task counts as run for a hash then what is in its directories was made by a run with this hash.", "quantifier": "every history of runs with any hashes, runs that are broken off included, every set of files, every names of recipes and tasks", "why_tests_cant": "all histories and all names", "anchors": ["bitbake/lib/bb/build.py:make_stamp_mcfn", "bitbake/lib/bb/build.py:clean_stamp_mcfn", "bitbake/lib/bb/build.py:find_stale_stamps", "bitbake/lib/bb/siggen.py:stampfile"]}
{"id": "C175", "title": "The environment of a task is that of the recipe", "statement": "The environment of a task has exactly the variables that the recipe and the task export and the settings of fakeroot, and nothing of the environment in which the build was started; the environment of the worker is after a task as it was before.", "quantifier": "every environment, every list of variables and settings", "why_tests_cant": "all environments", "anchors": ["bitbake/bin/bitbake-worker:fork_off_task", "bitbake/lib/bb/utils.py:empty_environment"]}
{"id": "C176", "title": "What a script says arrives", "statement": "Messages of a script are logged in their order, each with its kind and its text, in whatever pieces they are read, and none is lost.", "quantifier": "every list of messages with any texts, every way in which they are cut in pieces", "why_tests_cant": "all texts and all cuts", "anchors": ["bitbake/lib/bb/build.py:exec_func_shell"]}
{"id": "C177", "title": "Revisions of a package never go back", "statement": "Without history, the revisions that the service gives to a version of a package for an architecture never get smaller, different contents have different revisions, and contents that did not change keep theirs as long as no others are asked for. A new service that has imported what another one exported gives the same revisions.", "quantifier": "every history of requests, imports and restarts, every table", "why_tests_cant": "all histories", "anchors": ["bitbake/lib/prserv/db.py:PRTable._getValueNohist", "bitbake/lib/prserv/db.py:PRTable._importNohist", "bitbake/lib/prserv/db.py:PRTable.export"]}
{"id": "C178", "title": "With history contents keep their revision", "statement": "With history, the same contents of a package have the same revision for ever, and new contents have one that is greater than all before.", "quantifier": "every history of requests, imports and restarts", "why_tests_cant": "all histories", "anchors": ["bitbake/lib/prserv/db.py:PRTable._getValueHist", "bitbake/lib/prserv/db.py:PRTable._importHist"]}
{"id": "C179", "title": "A revision that was given out is not forgotten", "statement": "After a crash of the service, each revision that it has given out is still known.", "quantifier": "every history of requests, every point of a crash", "why_tests_cant": "all points of crashes", "anchors": ["bitbake/lib/prserv/serv.py:PRServerClient.dispatch_message", "bitbake/lib/prserv/serv.py:PRServer.signal_handler"]}
{"id": "C180", "title": "The unified hash of a task does not change", "statement": "As long as nothing is removed, a task keeps the unified hash it was once told, whatever is reported by clients, and by upstream servers, in whatever order requests are served and interrupted; what a report is answered is what the task has from then on.", "quantifier": "every history of reports, of answers of an upstream server, every interleaving", "why_tests_cant": "all histories and interleavings", "anchors": ["bitbake/lib/hashserv/server.py:ServerClient.handle_report", "bitbake/lib/hashserv/server.py:ServerClient.handle_equivreport", "bitbake/lib/hashserv/sqlite.py:Database.insert_unihash"]}
{"id": "C181", "title": "Tasks are equivalent if and only if they give the same", "statement": "Two tasks of a method have the same unified hash if and only if they gave the same output; of several, the oldest is taken. A server that is read only answers the same.", "quantifier": "every history of reports, collections and cleaning, every relation of tasks and outputs", "why_tests_cant": "all histories", "anchors": ["bitbake/lib/hashserv/server.py:ServerClient.handle_report", "bitbake/lib/hashserv/server.py:ServerClient.report_readonly", "bitbake/lib/hashserv/sqlite.py:Database.get_equivalent_for_outhash"]}
{"id": "C182", "title": "Collecting and removing hashes removes exactly what is meant", "statement": "What was marked with any of the conditions, and what came in since the mark was set, is kept when the rest is removed; the rest is removed; without the right mark nothing is. Cleaning removes the outputs that are not used and older than the given age. A condition removes the entries that it fits and no others.", "quantifier": "every table, every sequence of marks, reports and conditions", "why_tests_cant": "all tables and sequences", "anchors": ["bitbake/lib/hashserv/sqlite.py:Database.gc_mark", "bitbake/lib/hashserv/sqlite.py:Database.gc_sweep", "bitbake/lib/hashserv/sqlite.py:Database.clean_unused", "bitbake/lib/hashserv/sqlite.py:Database.remove", "bitbake/lib/hashserv/server.py:ServerClient.handle_gc_sweep", "bitbake/lib/hashserv/server.py:ServerClient.handle_clean_unused"]}
{"id": "C183", "title": "Only those who may change users and tables do", "statement": "The entry of a user changes only on a request of an administrator, or of the user themself for a new token or to go away. Nobody else gives permissions. The user of a connection is one whose token was given, or one that an administrator became, and has the permissions of this user. Tables are read and changed only by those who have the permissions for it.", "quantifier": "every history of requests on any connections, every table of users, every permissions of all", "why_tests_cant": "all histories of requests", "anchors": ["bitbake/lib/hashserv/server.py:permissions", "bitbake/lib/hashserv/server.py:ServerClient.user_has_permissions", "bitbake/lib/hashserv/server.py:ServerClient.handle_auth", "bitbake/lib/hashserv/server.py:ServerClient.handle_become_user"]}
{"id": "C184", "title": "The innermost layer decides and the layer of the greatest priority wins", "statement": "A recipe file has the priority of the layer with the longest path around it. The files found for BBFILES are all files of its entries, each once, in the order of their priorities whatever the order on disk; of recipe files of the same name the one of the greatest priority is above the others.", "quantifier": "every set of layers, every BBFILES, every tree on disk, every order of directories", "why_tests_cant": "all layers, trees and orders", "anchors": ["bitbake/lib/bb/cooker.py:CookerCollectFiles.calc_bbfile_priority", "bitbake/lib/bb/cooker.py:CookerCollectFiles.find_bbfiles", "bitbake/lib/bb/cooker.py:CookerCollectFiles.collect_bbfiles"]}
{"id": "C185", "title": "BBMASK leaves out exactly what it matches", "statement": "A file is left out exactly if one of the words of BBMASK is a regular expression that is found in its name; words that are not regular expressions, or begin with a bar, do not mask anything else.", "quantifier": "every BBMASK, every file name, every regular expressions", "why_tests_cant": "all texts of masks", "anchors": ["bitbake/lib/bb/cooker.py:CookerCollectFiles.collect_bbfiles"]}
{"id": "C186", "title": "A .bbappend file applies to the recipes it is named for, in order of layers", "statement": "An addition applies to the recipe of the same name, or with a % to those whose name starts with what is before it; the additions of a recipe come in the order of the priorities of their layers, the greatest last.", "quantifier": "every set of layers, recipes and additions", "why_tests_cant": "all names and layers", "anchors": ["bitbake/lib/bb/cooker.py:CookerCollectFiles.get_file_appends", "bitbake/lib/bb/cooker.py:CookerCollectFiles.collect_bbfiles"]}
{"id": "C187", "title": "A layer without files is warned about, and no other", "statement": "A warning that the pattern of a layer matches nothing is given exactly if no recipe and no addition is of this layer, unless it is switched off for the layer.", "quantifier": "every set of layers, recipes and additions", "why_tests_cant": "all sets of layers and files", "anchors": ["bitbake/lib/bb/cooker.py:CookerCollectFiles.collection_priorities"]}
{"id": "C188", "title": "A message between client and server arrives as it was sent, or not at all", "statement": "Messages on a connection arrive as they were sent and in that order, however long they are and wherever they are cut into pieces; no line is longer than the buffer of the reader. If the sender is cut off at any point, the reader gets the messages before as a whole and then an error.", "quantifier": "every sequence of messages of any length, every size of pieces, every point at which the sender is cut off", "why_tests_cant": "all messages and all points of a crash", "anchors": ["bitbake/lib/bb/asyncrpc/connection.py:chunkify", "bitbake/lib/bb/asyncrpc/connection.py:StreamConnection.send_message", "bitbake/lib/bb/asyncrpc/connection.py:StreamConnection.recv_message", "bitbake/lib/bb/asyncrpc/connection.py:StreamConnection.recv"]}
{"id": "C189", "title": "A build stops when the disk is full, once, and not before", "statement": "As soon as there is less space or there are less inodes left than given for a directory, the build is ended at the next check, at once or after the running tasks as the action says, and this is asked for once. As long as enough is left it goes on. A warning is given the first time, and again only if what is left went down by more than the interval.", "quantifier": "every history of free space and inodes, every set of directories", "why_tests_cant": "all histories of a disk", "anchors": ["bitbake/lib/bb/monitordisk.py:diskMonitor.check"]}
{"id": "C190", "title": "The directories to be watched are those of the configuration", "statement": "An entry of BB_DISKMON_DIRS watches its directory with its action and the values given, with their units; a wrong entry is not passed over; of two for the same directory and action the later counts. The intervals of warnings are as given, or as by default.", "quantifier": "every list of entries, all numbers and units", "why_tests_cant": "all texts of configuration", "anchors": ["bitbake/lib/bb/monitordisk.py:getDiskData", "bitbake/lib/bb/monitordisk.py:convertGMK", "bitbake/lib/bb/monitordisk.py:getInterval"]}
{"id": "C191", "title": "The checksum of a local file is that of its content", "statement": "Whatever was built before, by how many processes at the same time, and wherever one of them was killed: the checksum of a local file that counts in the hash of a task is the checksum of its content, and a file that is not there has none.", "quantifier": "every history of processes that start, ask, save, merge and die, and of changes of files", "why_tests_cant": "all histories of builds and changes, all points of a crash", "anchors": ["bitbake/lib/bb/checksum.py:FileChecksumCache.get_checksum", "bitbake/lib/bb/checksum.py:FileMtimeCache.cached_mtime", "bitbake/lib/bb/checksum.py:FileChecksumCache.merge_data", "bitbake/lib/bb/cache.py:MultiProcessCache.save_extras", "bitbake/lib/bb/cache.py:MultiProcessCache.save_merge"]}
{"id": "C192", "title": "The files a task depends on are those that were found", "statement": "The list of local files of a recipe, with a mark for those that exist, is read as it was written: exactly the paths that exist are looked at, also if there are spaces in them.", "quantifier": "every list of paths and marks", "why_tests_cant": "all paths", "anchors": ["bitbake/lib/bb/checksum.py:FileChecksumCache.get_checksums", "bitbake/lib/bb/checksum.py:filelist_regex", "bitbake/lib/bb/fetch2/__init__.py:get_checksum_file_list"]}
{"id": "C193", "title": "All files of a local directory count in the hash of a task, with their places", "statement": "If a directory is in SRC_URI, each file in it, at any depth, counts in the hash with its content and its place in the directory, and excluded directories do not count.", "quantifier": "every tree of directories, every path, every set of excluded names", "why_tests_cant": "all trees", "anchors": ["bitbake/lib/bb/checksum.py:FileChecksumCache.get_checksums", "bitbake/lib/bb/siggen.py:SignatureGeneratorBasic.get_taskhash"]}
{"id": "C194", "title": "A root partition has what is to be in it", "statement": "In the prepared content of a root partition there is all that is to be included, at its place; nothing that is excluded is left, with all below it; and all else is as in the root file system it is made from.", "quantifier": "every file system with links, every list of included archives and excluded paths, every content of the directory that is copied", "why_tests_cant": "all trees, all links, all lists of paths", "anchors": ["scripts/lib/wic/plugins/source/rootfs.py:RootfsPlugin.do_prepare_partition", "scripts/lib/wic/plugins/source/rootfs.py:RootfsPlugin.__validate_path", "scripts/lib/wic/misc.py:exec_native_cmd", "meta/lib/oe/path.py:copyhardlinktree"]}
{"id": "C195", "title": "Preparing a partition changes nothing outside of its own copy", "statement": "Whatever paths are given to be included or excluded, with links and .. in them: nothing outside of the copy made for this partition changes. The root file system the copy is made from stays as it is, also the content of its files, which share their inodes with the copy.", "quantifier": "every file system with links, every list of paths, every archive", "why_tests_cant": "all trees, all links, all paths", "anchors": ["scripts/lib/wic/plugins/source/rootfs.py:RootfsPlugin.do_prepare_partition", "scripts/lib/wic/plugins/source/rootfs.py:RootfsPlugin.__validate_path", "scripts/lib/wic/misc.py:exec_native_cmd", "meta/lib/oe/path.py:copyhardlinktree"]}
{"id": "C196", "title": "wic gets the variables of the image as they are set", "statement": "Each variable in WICVARS is read by wic as it is set for the image, without white space around it; a variable that is empty or not in the list is not there. Whatever was asked before, and for whichever image, the answer is what was written for the image that is asked about, or for the default one.", "quantifier": "every list of variables and their values, every sequence of questions with and without keeping", "why_tests_cant": "all values, all histories of questions", "anchors": ["meta/classes-recipe/imagetypes_wic.bbclass:do_rootfs_wicenv", "scripts/lib/wic/misc.py:BitbakeVars._parse_line", "scripts/lib/wic/misc.py:BitbakeVars.get_var"]}
{"id": "C197", "title": "The description of a disk image is the first one found", "statement": "A relative WKS_FILE is the first file of this name (with .wks added, if it has no such suffix) in the wic directories of all layers and then in their canned ones; an absolute one is taken as it is; if there is none the build ends. If it is a template, what wic reads is the file made of it.", "quantifier": "every list of directories, every name, every set of files there are", "why_tests_cant": "all paths and file systems", "anchors": ["meta/classes-recipe/imagetypes_wic.bbclass", "bitbake/lib/bb/utils.py:which"]}
{"id": "C198", "title": "References in the template of a disk image become values", "statement": "In the file made of a template each ${NAME} is replaced by the value of the variable NAME of the recipe, nothing if it has none, once and not within values; all else is as in the template.", "quantifier": "every template as a sequence of text and references, every setting of variables, every environment of the build", "why_tests_cant": "all templates and values", "anchors": ["meta/classes-recipe/imagetypes_wic.bbclass", "meta/classes-global/template.bbclass:do_transform_template"]}
{"id": "C199", "title": "The list of boot files says what is installed", "statement": "IMAGE_BOOT_FILES of the partition (by uuid, by label, or for all) is a list of files: each goes to the partition under its path or under the one after the semicolon; all files that a pattern matches go there under their names, or into the directory after the semicolon.", "quantifier": "every list of paths, patterns and destinations, every result of the patterns", "why_tests_cant": "all lists and directories", "anchors": ["scripts/lib/wic/plugins/source/bootimg-partition.py:BootimgPartitionPlugin.do_configure_partition"]}
{"id": "C200", "title": "A boot partition has exactly its files", "statement": "After the preparation each listed file is in the directory of the partition with its content, nothing else is there, and nothing outside of this directory is changed; a file that is missing is an error.", "quantifier": "every list of files and destinations, every file system before", "why_tests_cant": "all lists and file systems", "anchors": ["scripts/lib/wic/plugins/source/bootimg-partition.py:BootimgPartitionPlugin.do_prepare_partition"]}
{"id": "C201", "title": "The boot loader starts a kernel of the partition", "statement": "The configuration made for a partition names the first file of the first kind of kernel there is (zImage, Image, fitImage, uImage, vmlinux), the directory of the device trees and the root device; without a kernel the build ends.", "quantifier": "every list of files", "why_tests_cant": "all lists of files", "anchors": ["scripts/lib/wic/plugins/source/bootimg-partition.py:BootimgPartitionPlugin.do_configure_partition"]}
{"id": "C202", "title": "Adding a layer adds just this layer", "statement": "After bitbake-layers add-layer the layers that the configuration lists are those from before, in their order, and the new one; all other lines of the file stay as they were. A layer that is there already is told and the file is not written; if the configuration cannot be parsed with the new layer the file stays as it was.", "quantifier": "every configuration file (settings over several lines, with any operator, several settings, other lines between them), every layer", "why_tests_cant": "all files and layers; the file is changed by text editing and read again by the parser", "anchors": ["bitbake/lib/bb/utils.py:edit_bblayers_conf", "bitbake/lib/bb/utils.py:edit_metadata", "bitbake/lib/bblayers/action.py:ActionPlugin.do_add_layer"]}
{"id": "C203", "title": "Removing a layer removes just this layer", "statement": "After bitbake-layers remove-layer, with a path or with the name of a directory, the configuration lists the layers from before in their order without those that have this path or this name; all other lines stay but for blank ones. A layer that is not there is told and the file is not written.", "quantifier": "every configuration file, every path and name", "why_tests_cant": "all files and layers", "anchors": ["bitbake/lib/bb/utils.py:edit_bblayers_conf", "bitbake/lib/bb/utils.py:edit_metadata", "bitbake/lib/bblayers/action.py:ActionPlugin.do_remove_layer"]}
{"id": "C204", "title": "Local files are in the work directory as they are named", "statement": "After do_unpack each file and each directory that SRC_URI names with file:// and that is not to be unpacked is in WORKDIR, or in its subdir, below the path that the URL has, with the content of the first directory of FILESPATH that has it; it succeeds just if each of them is somewhere, and changes nothing else.", "quantifier": "every list of local files and directories, every FILESPATH, every state of the file system", "why_tests_cant": "all URLs, search paths and file systems", "anchors": ["bitbake/lib/bb/fetch2/__init__.py:FetchMethod.unpack", "bitbake/lib/bb/fetch2/__init__.py:Fetch.unpack", "bitbake/lib/bb/fetch2/__init__.py:decodeurl", "bitbake/lib/bb/fetch2/local.py:Local.urldata_init", "bitbake/lib/bb/fetch2/local.py:Local.localfile_searchpaths", "meta/classes-global/base.bbclass:do_unpack"]}
{"id": "C205", "title": "The suffix decides how a source is unpacked, and the download stays", "statement": "The longest known suffix decides which program unpacks a file. A compressed file is written without its suffix into the directory, the download stays as it is. What is not to be unpacked (unpack=0, prebuilt packages) is copied.", "quantifier": "every file name, all contents, every URL", "why_tests_cant": "all names and contents", "anchors": ["bitbake/lib/bb/fetch2/__init__.py:FetchMethod.unpack", "meta/classes-recipe/dpkg-prebuilt.bbclass"]}
{"id": "C206", "title": "Unpacking changes nothing outside the work directory", "statement": "Whatever the sources are and whichever of them fails, do_unpack changes no file outside the directory it unpacks in; a subdir elsewhere is refused.", "quantifier": "every list of sources, all parameters, every point of failure", "why_tests_cant": "all sources, parameters and file systems", "anchors": ["bitbake/lib/bb/fetch2/__init__.py:FetchMethod.unpack", "bitbake/lib/bb/fetch2/__init__.py:Fetch.unpack", "meta/classes-global/base.bbclass:do_unpack"]}
{"id": "C207", "title": "The date of a build depends on the sources only", "statement": "SOURCE_DATE_EPOCH is the time of the last commit if a source is fetched with git and its repository is found, else the time of the youngest file of the sources that is not hidden, else a fixed date. It is the same wherever and in whichever order the files are listed.", "quantifier": "every set of sources, every tree of directories and order of their entries", "why_tests_cant": "all trees and orders", "anchors": ["meta/lib/oe/reproducible.py:get_source_date_epoch", "meta/lib/oe/reproducible.py:get_source_date_epoch_from_git", "meta/lib/oe/reproducible.py:find_git_folder", "meta/lib/oe/reproducible.py:get_source_date_epoch_from_youngest_file", "meta/lib/oe/reproducible.py:fixed_source_date_epoch"]}
{"id": "C208", "title": "Later tasks see the date that was stored", "statement": "Each process that starts after the date was stored reads the same number. Whenever storing is interrupted the file has its old content or all of the new one. Without a valid file the fixed date is used. Within one process the date never changes once it was read.", "quantifier": "every date, every state of the files, every point of interruption, every later content", "why_tests_cant": "all crash points and histories", "anchors": ["meta/lib/oe/reproducible.py:epochfile_read", "meta/lib/oe/reproducible.py:epochfile_write", "meta/classes-global/base.bbclass:create_source_date_epoch_stamp", "meta/classes-global/base.bbclass:get_source_date_epoch_value"]}
{"id": "C209", "title": "No file of an image is younger than the date of the build", "statement": "At the end of do_rootfs each file that is younger than SOURCE_DATE_EPOCH has this date, all others keep theirs.", "quantifier": "every root file system, every date", "why_tests_cant": "all dates and times", "anchors": ["meta/classes-recipe/image.bbclass:do_rootfs_finalize"]}
{"id": "C210", "title": "Equal outputs of a task have equal hashes", "statement": "Two outputs of a task with the same paths, types, contents, link targets and permissions of the owner have the same output hash. The order in which directories are listed, the times, the owners, the groups and their permissions do not matter.", "quantifier": "every pair of file trees, every order of their listings, every configuration outside of pseudo and task other than package", "why_tests_cant": "all trees and orders of listings", "anchors": ["meta/lib/oe/sstatesig.py:OEOuthashBasic", "meta/classes-global/sstate.bbclass:SSTATE_HASHEQUIV_METHOD"]}
{"id": "C211", "title": "Different outputs of a task are told apart", "statement": "If the text that is hashed is the same for two outputs, they have the same paths with the same types, permissions of the owner, link targets, device numbers, and lengths and checksums of contents. Outputs of different tasks or package specifications never have the same text.", "quantifier": "every pair of file trees, every configuration outside of pseudo and task other than package", "why_tests_cant": "all pairs of trees", "anchors": ["meta/lib/oe/sstatesig.py:OEOuthashBasic", "meta/classes-global/sstate.bbclass:SSTATE_HASHEQUIV_METHOD"]}
{"id": "C212", "title": "An image asks for customizations under the names that recipes have", "statement": "For every customization NAME the name that an image installs is the name of the variant of the recipe NAME-customization that is meant for this image: the one for the image if it is in CUSTOMIZATION_FOR_IMAGES, else the common one.", "quantifier": "every value of the configuration variables, every image, every list of customizations", "why_tests_cant": "all configurations", "anchors": ["meta/classes-recipe/customization-base.bbclass:CUSTOMIZATION_PREFIX", "meta/classes-recipe/dpkg-customization.bbclass:customization_virtclass_handler", "meta/classes-recipe/image-customizations.bbclass:customization_packages"]}
{"id": "C213", "title": "The Debian package of a customization has the name of the recipe", "statement": "The Debian package that a variant of a customization recipe builds has the name that images install. Variants for different images have different names, which differ from the common one.", "quantifier": "every value of the configuration variables, every recipe and image", "why_tests_cant": "all configurations", "anchors": ["meta/classes-recipe/customization-base.bbclass:CUSTOMIZATION_PREFIX", "meta/classes-recipe/dpkg-customization.bbclass:customization_virtclass_handler", "meta/classes-recipe/image-customizations.bbclass:customization_packages"]}
{"id": "C214", "title": "What is unpacked from a git URL is its revision", "statement": "If the unpacking of a git URL succeeds, the clone has each revision of the URL in the branch of the URL, and the files are those of the first revision. If the fetch of a URL succeeds, it can be unpacked without network. If the clone has the revisions, the network is not used and the clone is not changed. A revision that neither the clone nor the server has in the branch is never fetched.", "quantifier": "all URLs, all clones, all repositories on servers, all graphs of commits", "why_tests_cant": "tests fetch a few revisions from a few repositories", "anchors": ["bitbake/lib/bb/fetch2/git.py:Git.download", "bitbake/lib/bb/fetch2/git.py:Git.need_update", "bitbake/lib/bb/fetch2/git.py:Git.unpack", "bitbake/lib/bb/fetch2/git.py:Git._contains_ref"]}
{"id": "C215", "title": "A fetched revision stays fetched", "statement": "After a successful fetch, the URL can be unpacked after any history of fetches of other URLs, failed and killed fetches, changes on servers and collections of garbage.", "quantifier": "all histories of events", "why_tests_cant": "tests do not run histories with other recipes and changes of servers", "anchors": ["bitbake/lib/bb/fetch2/git.py:Git.download", "bitbake/lib/bb/fetch2/git.py:Git.need_update", "bitbake/lib/bb/fetch2/git.py:Git.unpack"]}
{"id": "C216", "title": "A fetch recovers from any state of the clone", "statement": "Whatever is in the place of the clone, if the server can be reached and has the revisions in their branches, the fetch succeeds. A fetch removes no commit from a clone.", "quantifier": "all states of the directory of the clone, all repositories on servers", "why_tests_cant": "tests try two or three broken clones", "anchors": ["bitbake/lib/bb/fetch2/git.py:Git.download", "bitbake/lib/bb/fetch2/git.py:Git.need_update", "bitbake/lib/bb/fetch2/git.py:Git.unpack"]}
{"id": "C217", "title": "Clones and revisions are found by name", "statement": "Different repositories have different directories for their clones. The latest revision of a name is that of the branch; if there is none, that of the commit of the tag; if there is neither, it is an error. Each name of a URL has one branch.", "quantifier": "all hosts and paths, all lists of references of a server", "why_tests_cant": "tests use a few paths and references", "anchors": ["bitbake/lib/bb/fetch2/git.py:Git.urldata_init", "bitbake/lib/bb/fetch2/git.py:Git._latest_revision"]}
{"id": "C218", "title": "Links of the SDK lead to the same files wherever it is put", "statement": "Wherever the SDK is unpacked on a host, a path below it leads to the same file of the SDK that it leads to in a chroot, and to no file of the host.", "quantifier": "all root file systems, all places of the SDK, all paths", "why_tests_cant": "tests unpack the SDK in one place and run a compiler", "anchors": ["meta/classes-recipe/sdk.bbclass:sdkchroot_finalize"]}
{"id": "C219", "title": "The SDK can be moved again and again", "statement": "After the relocation script, the interpreter of each program is that of the new place, whatever the old place was. Programs with other interpreters are left as they are.", "quantifier": "all old and new places, all interpreters", "why_tests_cant": "tests relocate once", "anchors": ["meta/recipes-devtools/sdk-files/files/relocate-sdk.sh"]}
{"id": "C220", "title": "An image is marked with one line for each field", "statement": "After an image was marked, /etc/os-release has one line each with the build id, the variant and its version. All other lines stay in their order. If it is marked again, only the last values count.", "quantifier": "all files, all values", "why_tests_cant": "tests look at one image", "anchors": ["meta/classes-recipe/image-postproc-extension.bbclass:update_etc_os_release", "meta/classes-recipe/image-postproc-extension.bbclass:image_postprocess_mark"]}
{"id": "C221", "title": "Parsing that ends as complete has parsed every recipe once", "statement": "Recipes are parsed by several processes. If parsing ends as complete, every recipe of the cache was loaded and every other recipe was parsed, each exactly once, and none failed. If a recipe is reported as failed, it is one of the recipes and it does fail. \"Not all recipes parsed\" is reported only if a process was killed. This holds for every order of the events and whichever processes are killed.", "quantifier": "all sets of recipes, numbers of processes, interleavings of processes, pipe and collector, all points where processes are killed", "why_tests_cant": "tests see one interleaving", "anchors": ["bitbake/lib/bb/cooker.py:CookerParser.parse_generator", "bitbake/lib/bb/cooker.py:CookerParser.parse_next", "bitbake/lib/bb/cooker.py:CookerParser.start", "bitbake/lib/bb/cooker.py:Parser.realrun"]}
{"id": "C222", "title": "Parsing ends", "statement": "If no process and not the collector is left out for ever, parsing ends, whichever processes are killed. Without kills it ends as complete exactly when no recipe fails.", "quantifier": "all fair unending orders of events, all kills", "why_tests_cant": "no test runs for ever, and a race may show once in many runs", "anchors": ["bitbake/lib/bb/cooker.py:CookerParser.parse_generator", "bitbake/lib/bb/cooker.py:Parser.realrun"]}
{"id": "C223", "title": "Every number of parser processes parses all recipes", "statement": "Whatever number BB_NUMBER_PARSE_THREADS has, all recipes are parsed if none fails and no process is killed.", "quantifier": "all numbers, recipes and orders of events", "why_tests_cant": "tests use the number of processors", "anchors": ["bitbake/lib/bb/cooker.py:CookerParser.__init__", "bitbake/lib/bb/cooker.py:CookerParser.start"]}
{"id": "C224", "title": "A task hash that differs is explained", "statement": "When the records of two runs of a task have different hashes, the comparison of the records prints a line about something that goes into the hash. When the base hashes differ, it names the changed dependencies or a variable with both its values.", "quantifier": "all pairs of records, all hash functions", "why_tests_cant": "tests compare few records", "anchors": ["bitbake/lib/bb/siggen.py:compare_sigfiles", "bitbake/lib/bb/siggen.py:calc_taskhash", "bitbake/lib/bb/siggen.py:calc_basehash"]}
{"id": "C225", "title": "The comparison of two records says what changed and nothing else", "statement": "A variable is named exactly when both records have it with different values. The lines about files turn the list of files of one record into that of the other, with repeated entries, and no file is named for no reason. Two equal records give no line.", "quantifier": "all pairs of records", "why_tests_cant": "tests compare few records", "anchors": ["bitbake/lib/bb/siggen.py:compare_sigfiles", "bitbake/lib/bb/siggen.py:clean_checksum_file_path"]}
{"id": "C226", "title": "The hash of a task does not depend on where its files are", "statement": "If layers are checked out at other places, with the same contents, the hashes of tasks stay the same.", "quantifier": "all tasks, all files, all places", "why_tests_cant": "tests use one checkout", "anchors": ["bitbake/lib/bb/siggen.py:clean_checksum_file_path", "bitbake/lib/bb/siggen.py:SignatureGeneratorBasic.get_taskhash", "bitbake/lib/bb/siggen.py:SignatureGeneratorBasic.dump_sigtask"]}
{"id": "C227", "title": "The configuration fragments of a kernel are the named ones and the .cfg files of its sources", "statement": "The fragments that are merged into the configuration of a kernel are those named by the recipe, then the sources whose names end in .cfg, in their order, without those marked with apply=no, and no others.", "quantifier": "all lists of named fragments and of sources", "why_tests_cant": "tests build few kernels", "anchors": ["meta/classes-recipe/linux-kernel.bbclass:config_fragments"]}
{"id": "C228", "title": "A configuration fragment is where the build of the kernel reads it", "statement": "Every fragment that is listed for the build is copied to the place where the build reads it, or is read from the source tree and lies there.", "quantifier": "all source trees, all names of fragments, with any directories", "why_tests_cant": "tests use few names", "anchors": ["meta/classes-recipe/linux-kernel.bbclass:get_kernel_config_fragments", "meta/classes-recipe/linux-kernel.bbclass:dpkg_configure_kernel"]}
{"id": "C229", "title": "The boot script loads the overlays that are asked for", "statement": "The boot script of U-Boot loads all overlays in their order, absolute ones from their paths and relative ones from the directory of the kernel.", "quantifier": "all lists of overlays, all kernel versions", "why_tests_cant": "tests use few lists", "anchors": ["meta/recipes-bsp/u-boot-script/files/update-u-boot-script", "meta/recipes-bsp/u-boot-script/files/u-boot-script"]}
{"id": "C230", "title": "The boot script boots with a ramdisk exactly when it loaded one", "statement": "The last command of the boot script boots, no other does, a kernel was loaded before it, and it is given a ramdisk exactly if one was loaded before.", "quantifier": "all configurations of the script", "why_tests_cant": "tests use few configurations", "anchors": ["meta/recipes-bsp/u-boot-script/files/update-u-boot-script"]}
{"id": "C231", "title": "A tree that is put in place with hard links is complete", "statement": "After a tree was copied with hard links where they can be made, everything that is in the source is in the destination with the same contents, nothing else of the destination has changed, and the copy succeeds or fails independently of whether links can be made.", "quantifier": "all trees with all names, all contents of the destination, all answers of the system to the making of links", "why_tests_cant": "tests copy few trees, without names of a dot and one character", "anchors": ["meta/lib/oe/path.py:copyhardlinktree", "meta/lib/oe/path.py:copytree", "meta/classes-global/sstate.bbclass:sstate_install", "scripts/lib/wic/plugins/source/rootfs.py:RootfsPlugin.do_prepare_partition"]}
{"id": "C232", "title": "Changes of a copied tree do not change the tree it was copied from", "statement": "Whatever is done to the files of a tree that was put in place by copying leaves the source as it is.", "quantifier": "all histories of replacing, removing and writing files of the copy", "why_tests_cant": "tests run few programs after a copy", "anchors": ["meta/lib/oe/path.py:copyhardlinktree", "scripts/lib/wic/plugins/source/rootfs.py:RootfsPlugin.do_prepare_partition"]}
{"id": "C233", "title": "A package is built in the chroot it waits for, on the architecture it is told", "statement": "For each package the directory of the chroot in which it is built, the task that is waited for before and the architecture on which it is said to be built belong to one and the same chroot, with and without a flavor.", "quantifier": "all architectures of target, host, compatible packages and the package, all flavors and directories, with and without cross compilation", "why_tests_cant": "tests build for few pairs of architectures", "anchors": ["meta/classes-recipe/crossvars.bbclass", "meta/recipes-devtools/sbuild-chroot/sbuild-chroot.inc", "meta/recipes-devtools/sbuild-chroot/sbuild-chroot-host.bb", "meta/recipes-devtools/sbuild-chroot/sbuild-chroot-target.bb"]}
{"id": "C234", "title": "The chroot of a package has a compiler for it", "statement": "The chroot in which a package is built has the compiler for the architecture of the package. With cross compilation packages for the target are built on the host's architecture, without it on that of the target, and the profile for cross building is given exactly if the two architectures differ.", "quantifier": "all architectures, with and without cross compilation and the compatible architecture", "why_tests_cant": "tests build for few pairs of architectures", "anchors": ["meta/classes-recipe/crossvars.bbclass", "meta/classes-recipe/compat.bbclass:isar_can_build_compat", "meta/classes-recipe/dpkg-base.bbclass:isar_deb_build_profiles", "meta/recipes-devtools/sbuild-chroot/sbuild-chroot.inc"]}
{"id": "C235", "title": "The ramdisk is made with the configuration, drivers and modules that are set", "statement": "dracut is called so that it gets the version of the kernel, the file of the configuration, all the drivers and modules of the variables, those named by packages if that is enabled, and nothing else.", "quantifier": "all values of the variables and all lists of packages", "why_tests_cant": "tests set few values, most of them of one word", "anchors": ["meta/classes-recipe/initrd-dracut.bbclass:extend_dracut_cmdline", "meta/classes-recipe/rootfs.bbclass:initramfs_generator_cmdline", "meta/classes-recipe/rootfs.bbclass:rootfs_generate_initramfs"]}
{"id": "C236", "title": "The ramdisk that is deployed is that of the kernel", "statement": "After the ramdisks of all kernels were made, the one that is deployed was made in this run for the last of the kernels.", "quantifier": "all lists of kernels, all contents of the boot directory and all that was left by earlier runs", "why_tests_cant": "tests have one kernel and a new boot directory", "anchors": ["meta/classes-recipe/rootfs.bbclass:rootfs_generate_initramfs"]}
{"id": "C237", "title": "Asynchronous commands run one at a time and each ends with one event", "statement": "However the threads of the server are scheduled, a command is accepted only after the one before it has finished, and each command that was accepted brings exactly one of the events CommandCompleted, CommandFailed and CommandExit, unless the server ends.", "quantifier": "all schedules of the two threads, all sequences of commands and all that they do", "why_tests_cant": "tests run few commands under one schedule", "anchors": ["bitbake/lib/bb/command.py:Command.runCommand", "bitbake/lib/bb/command.py:Command.runAsyncCommand", "bitbake/lib/bb/command.py:Command.finishAsyncCommand", "bitbake/lib/bb/server/process.py:ProcessServer.set_async_cmd", "bitbake/lib/bb/server/process.py:ProcessServer.idle_thread_internal"]}
{"id": "C238", "title": "No accepted command is lost and the server becomes free again", "statement": "However the threads of the server are scheduled, the function of a command that was accepted is never lost before the command has finished, and as soon as its functions stop asking to be called again the server takes the next command, or ends. Clients are told that it is busy only while a command runs or is being removed.", "quantifier": "all schedules of the two threads, all sequences of commands and all that they do, with exceptions at any place", "why_tests_cant": "tests run few commands under one schedule", "anchors": ["bitbake/lib/bb/command.py:Command.runCommand", "bitbake/lib/bb/server/process.py:ProcessServer.register_idle_function", "bitbake/lib/bb/server/process.py:ProcessServer.set_async_cmd", "bitbake/lib/bb/server/process.py:ProcessServer.idle_thread_internal"]}
{"id": "C239", "title": "Clients of the server are served one at a time and get their own replies", "statement": "However clients connect, send commands and leave, the server serves one at a time, until it leaves: it runs only commands of the client it serves and sends the replies to that client, and while clients wait one of them is in control unless the server ends.", "quantifier": "all sequences of connections, commands, disconnections and times", "why_tests_cant": "tests use one client or two", "anchors": ["bitbake/lib/bb/server/process.py:ProcessServer.main"]}
{"id": "C240", "title": "Clients of the server have their turns in the order in which they connected", "statement": "Clients that connect while another one is served have their turns in the order in which they connected, so that none waits for ever.", "quantifier": "all sequences of connections, commands, disconnections and times", "why_tests_cant": "tests use one client or two", "anchors": ["bitbake/lib/bb/server/process.py:ProcessServer.main"]}
{"id": "C241", "title": "The server does not end while a client is connected or waits", "statement": "As long as a client is connected or waits, the server ends only if the client that is served asks for it or the server's own work fails.", "quantifier": "all sequences of connections, commands, disconnections and times, all timeouts", "why_tests_cant": "the cases depend on when clients come and go and on what they send", "anchors": ["bitbake/lib/bb/server/process.py:ProcessServer.main", "bitbake/lib/bb/server/process.py:recvfds"]}
{"id": "C242", "title": "Observers change nothing", "statement": "Over the network, a client that is only an observer can run the commands that change nothing and no others, and cannot end the server or remove other clients.", "quantifier": "all commands, states of the server and tokens", "why_tests_cant": "tests try single commands", "anchors": ["bitbake/lib/bb/command.py:Command.runCommand", "bitbake/lib/bb/command.py:CommandsSync", "bitbake/lib/bb/command.py:CommandsAsync", "bitbake/lib/bb/server/xmlrpcserver.py:BitBakeXMLRPCRequestHandler.do_POST"]}
{"id": "C243", "title": "Only the client that was let in can use the server over the network", "statement": "One client is let in at a time, and until it is removed requests with another token are refused, except those of observers.", "quantifier": "all sequences of requests, with all tokens", "why_tests_cant": "tests use one client", "anchors": ["bitbake/lib/bb/server/xmlrpcserver.py:BitBakeXMLRPCRequestHandler.do_POST", "bitbake/lib/bb/server/xmlrpcserver.py:BitBakeXMLRPCServerCommands.addClient", "bitbake/lib/bb/server/xmlrpcserver.py:BitBakeXMLRPCServerCommands.removeClient"]}
{"id": "C244", "title": "What keeps daemons from starting during installation leaves no trace in the image", "statement": "While packages are installed into a root file system, start-stop-daemon and the policy for services are replaced by ones that do nothing; when the root file system is finished, every file and every diversion is as if the packages had been installed without this.", "quantifier": "all root file systems with and without merged directories, all sequences of packages", "why_tests_cant": "tests install a few packages into one distribution", "anchors": ["meta/recipes-core/isar-mmdebstrap/files/chroot-setup.sh:chroot_setup", "meta/recipes-core/isar-mmdebstrap/files/chroot-setup.sh:chroot_cleanup", "meta/recipes-core/isar-mmdebstrap/files/chroot-setup.sh:undivert", "meta/classes-recipe/rootfs.bbclass:rootfs_prepare", "meta/classes-recipe/image.bbclass:do_rootfs_finalize"]}
{"id": "C245", "title": "Finishing the root file system can be interrupted and repeated", "statement": "If the task that finishes the root file system is interrupted at any command of the cleanup and run again, the result is the same as without the interruption.", "quantifier": "all root file systems and all places of interruption", "why_tests_cant": "tests do not interrupt it", "anchors": ["meta/recipes-core/isar-mmdebstrap/files/chroot-setup.sh:chroot_setup", "meta/recipes-core/isar-mmdebstrap/files/chroot-setup.sh:chroot_cleanup", "meta/recipes-core/isar-mmdebstrap/files/chroot-setup.sh:undivert", "meta/classes-recipe/rootfs.bbclass:rootfs_prepare", "meta/classes-recipe/image.bbclass:do_rootfs_finalize"]}
{"id": "C246", "title": "A client of the hash equivalence server gets the answer to its own question", "statement": "However the connection to the hash equivalence server fails, a look-up or a report either raises an error or gives what the server answered to this look-up or this report, and the server does nothing that was not asked for.", "quantifier": "all sequences of look-ups and reports, all failures of the connection at each message", "why_tests_cant": "tests use connections that work, or one that fails at one place", "anchors": ["bitbake/lib/bb/asyncrpc/client.py:AsyncClient._send_wrapper", "bitbake/lib/bb/asyncrpc/client.py:AsyncClient.invoke", "bitbake/lib/hashserv/client.py:AsyncClient._set_mode", "bitbake/lib/hashserv/client.py:AsyncClient.send_stream", "bitbake/lib/bb/asyncrpc/connection.py:StreamConnection.recv", "bitbake/lib/hashserv/server.py:ServerClient._stream_handler"]}
{"id": "C247", "title": "A client of the hash equivalence server survives a lost connection", "statement": "If the connection is lost fewer times than the client tries, every look-up and every report succeeds, whatever was asked before.", "quantifier": "all histories of look-ups and reports, all failures of the connection", "why_tests_cant": "tests use connections that work, or one that fails at one place", "anchors": ["bitbake/lib/bb/asyncrpc/client.py:AsyncClient._send_wrapper", "bitbake/lib/bb/asyncrpc/client.py:AsyncClient.invoke", "bitbake/lib/hashserv/client.py:AsyncClient._set_mode", "bitbake/lib/hashserv/client.py:AsyncClient.send_stream", "bitbake/lib/bb/asyncrpc/connection.py:StreamConnection.recv", "bitbake/lib/hashserv/server.py:ServerClient._stream_handler"]}
{"id": "C248", "title": "The user interface shows the tasks that run", "statement": "After any sequence of events in which every task is started before it ends, the user interface lists the tasks that run in the order in which they were started, each with the last progress it told, and the tasks that failed; no such sequence makes the user interface fail, which would stop the build.", "quantifier": "all sequences of events of all workers, with process numbers that are used again", "why_tests_cant": "tests send a few events of one worker", "anchors": ["bitbake/lib/bb/ui/uihelper.py:BBUIHelper.eventHandler", "bitbake/lib/bb/ui/knotty.py:main"]}
{"id": "C249", "title": "The user interface gets every event once, in order, and without delay", "statement": "The events that come from the server are given to the user interface in the order in which they came, none is lost and none comes twice; a call that waits for an event returns at once if there is one, and if it returns because there is one it gives one.", "quantifier": "all interleavings of the two threads", "why_tests_cant": "tests run the threads in the interleavings that happen", "anchors": ["bitbake/lib/bb/server/process.py:BBUIEventQueue.getEvent", "bitbake/lib/bb/server/process.py:BBUIEventQueue.waitEvent", "bitbake/lib/bb/server/process.py:BBUIEventQueue.queue_event"]}
{"id": "C250", "title": "Essential packages that are rebuilt are there before they are used", "statement": "If the user lists packages that must be rebuilt, every other package is built and every image is installed only after all of them, with the variants for the other architecture and for the host that can be built, are deployed; variants that cannot or need not be built are left out.", "quantifier": "all lists of packages, all recipes, all architectures", "why_tests_cant": "tests build one list for one architecture", "anchors": ["meta/classes-recipe/essential.bbclass:__anonymous", "meta/classes-recipe/image.bbclass:inherit essential", "meta/classes-recipe/dpkg-base.bbclass:do_local_isarapt"]}
{"id": "C251", "title": "The list of essential packages makes no circle", "statement": "If the recipes have no circular dependency, adding packages to the list of those that must be rebuilt first does not make one.", "quantifier": "all sets of recipes with their dependencies and all lists", "why_tests_cant": "tests have a few recipes", "anchors": ["meta/classes-recipe/essential.bbclass:__anonymous", "meta/classes-recipe/image.bbclass:inherit essential", "meta/classes-recipe/dpkg-base.bbclass:do_local_isarapt"]}
{"id": "C252", "title": "The tar file of an image has the tree of the root file system", "statement": "The tar file of an image or an SDK has the files, directories and links of the root file system, each with the same path, content and target.", "quantifier": "all root file systems", "why_tests_cant": "tests unpack a few images", "anchors": ["meta/classes-recipe/imagetypes.bbclass:IMAGE_CMD:tar", "meta/classes-recipe/sdk.bbclass:TAR_TRANSFORM:class-sdk"]}
{"id": "C253", "title": "Questions to the hash equivalence server share a bounded number of connections and all get their turn", "statement": "With parallel questions to the hash equivalence server there are never more connections than allowed, no connection is used for two questions at a time, and every question is asked sooner or later: no call waits for ever.", "quantifier": "all sequences of calls, all interleavings of the questions, all failures to connect and all failures of questions", "why_tests_cant": "tests see a few interleavings", "anchors": ["bitbake/lib/bb/asyncrpc/client.py:ClientPool.get_client", "bitbake/lib/bb/asyncrpc/client.py:ClientPool.run_tasks", "bitbake/lib/hashserv/client.py:ClientPool._run_key_tasks"]}
{"id": "C254", "title": "Parallel questions to the hash equivalence server give each task its own answer", "statement": "A parallel look-up returns for every task the hash that the server has for it, or none if the question for this task failed.", "quantifier": "all sets of questions, all interleavings and all failures", "why_tests_cant": "tests do not let single questions fail", "anchors": ["bitbake/lib/bb/asyncrpc/client.py:ClientPool.get_client", "bitbake/lib/bb/asyncrpc/client.py:ClientPool.run_tasks", "bitbake/lib/hashserv/client.py:ClientPool._run_key_tasks", "bitbake/lib/bb/siggen.py:SignatureGeneratorUniHashMixIn.get_unihashes"]}
{"id": "C255", "title": "Additional code of a dracut module is put in its function as it is", "statement": "The code in the file that is given for one of the functions of a dracut module is in this function of the module that is installed, as it is in the file but for indentation, and nothing else of the module changes.", "quantifier": "all templates, files and markers", "why_tests_cant": "tests insert a few files", "anchors": ["meta/classes-recipe/dracut-module.bbclass:replace_marker_with_file_content", "meta/classes-recipe/dracut-module.bbclass:do_add_additional_dracut_configuration"]}
{"id": "C256", "title": "Adding code to a dracut module can be interrupted and repeated", "statement": "The task that adds code to a dracut module succeeds if the template has the markers, also if it is run again or was interrupted before.", "quantifier": "all templates, all files, all points of interruption", "why_tests_cant": "tests run the task once", "anchors": ["meta/classes-recipe/dracut-module.bbclass:replace_marker_with_file_content", "meta/classes-recipe/dracut-module.bbclass:do_add_additional_dracut_configuration"]}
{"id": "C257", "title": "Moving a file is atomic and never loses it", "statement": "Wherever a move is interrupted and whatever fails in it, the file is whole at its old or its new place, and what was at the new place is there until the file is; success is told if and only if the file was moved.", "quantifier": "all file systems, all failures of single calls, all points of a crash, moves within and between devices", "why_tests_cant": "tests cannot stop at every point", "anchors": ["bitbake/lib/bb/utils.py:movefile"]}
{"id": "C258", "title": "Copying a file is atomic and keeps the original", "statement": "Wherever a copy is interrupted, the original is as before and the destination has either what was there or the whole copy; success is told only if the copy is complete, with the time of the original.", "quantifier": "all file systems, all failures of single calls, all points of a crash", "why_tests_cant": "tests cannot stop at every point", "anchors": ["bitbake/lib/bb/utils.py:copyfile"]}
{"id": "C259", "title": "A partition that is copied from a file has the content of this file", "statement": "When an image is built, each partition that is copied from a file has the content of this file, or what the archive contains, without the bytes that are to be skipped, and is large enough for it; if this is not possible the build fails.", "quantifier": "all lists of partitions, files, archives and work directories", "why_tests_cant": "tests build a few images", "anchors": ["scripts/lib/wic/plugins/source/rawcopy.py:RawCopyPlugin.do_prepare_partition", "scripts/lib/wic/plugins/source/rawcopy.py:RawCopyPlugin.do_image_label"]}
{"id": "C260", "title": "A build sees the approved variables of the environment with their present values and no others", "statement": "Whatever clients a server had before, a build sees of the environment exactly the variables that were approved when the server was started, with the values that they have for the present client; the configuration is parsed again if and only if one of these changed.", "quantifier": "all environments and all sequences of clients", "why_tests_cant": "tests connect one or two clients", "anchors": ["bitbake/lib/bb/utils.py:approved_variables", "bitbake/lib/bb/utils.py:clean_environment", "bitbake/lib/bb/cooker.py:BBCooker.updateConfigOpts", "bitbake/lib/bb/data.py:inheritFromOS", "bitbake/lib/bb/cookerdata.py:CookerDataBuilder.__init__"]}
{"id": "C261", "title": "A server that runs already lets in the same variables as a new one", "statement": "With a server that is still in memory, a build sees the same variables of the environment as it would with a new server.", "quantifier": "all environments and all sequences of clients", "why_tests_cant": "tests start from a fresh server", "anchors": ["bitbake/lib/bb/utils.py:approved_variables", "bitbake/lib/bb/utils.py:clean_environment", "bitbake/lib/bb/cooker.py:BBCooker.updateConfigOpts", "bitbake/lib/bb/data.py:inheritFromOS", "bitbake/lib/bb/cookerdata.py:CookerDataBuilder.__init__"]}
{"id": "C262", "title": "The hook and the scripts of a recipe for the initial RAM disk are in its package", "statement": "Every hook and script that a recipe gives for initramfs-tools is in its package, at the place where it is run, with the header if it is not complete; nothing else is there and no file is written twice.", "quantifier": "all recipes and all files in them", "why_tests_cant": "tests build a few recipes", "anchors": ["meta/classes-recipe/initramfs-hook.bbclass:do_install", "meta/classes-recipe/initramfs-hook.bbclass:get_initramfs_hook_name"]}
{"id": "C263", "title": "Packages with hooks can be installed together", "statement": "Packages of different recipes with hooks or scripts for the initial RAM disk have no file in common.", "quantifier": "all pairs of recipes", "why_tests_cant": "tests install a few packages", "anchors": ["meta/classes-recipe/initramfs-hook.bbclass:do_install", "meta/classes-recipe/initramfs-hook.bbclass:get_initramfs_hook_name"]}
{"id": "C264", "title": "Recursive deletion refuses to delete home directories and the root", "statement": "Recursive deletion never deletes the root, /home, a directory of a user in it or the home directory of the user who builds, neither by any of their names nor with a directory above them, and refuses nothing else.", "quantifier": "all paths, working directories and values of HOME", "why_tests_cant": "tests try a few paths", "anchors": ["bitbake/lib/bb/utils.py:_check_unsafe_delete_path", "bitbake/lib/bb/utils.py:remove", "bitbake/lib/bb/utils.py:prunedir"]}
{"id": "C265", "title": "Modules are listed for loading exactly while their package is installed", "statement": "After any history of installations, upgrades and removals of a package with kernel modules, each module that is to be loaded when the device starts is listed in /etc/modules once if the package is installed and not at all if it was removed, and other lines are as before.", "quantifier": "all lists of modules, files and histories", "why_tests_cant": "tests install a package once", "anchors": ["meta/classes-recipe/linux-module.bbclass:do_prepare_build", "meta/recipes-kernel/linux-module/files/debian/postinst"]}
{"id": "C266", "title": "A package with modules that cannot be registered is not configured", "statement": "The configuration of a package with kernel modules fails if and only if the modules cannot be registered.", "quantifier": "all lists of modules and all states of the device", "why_tests_cant": "tests do not let depmod fail", "anchors": ["meta/classes-recipe/linux-module.bbclass:do_prepare_build", "meta/recipes-kernel/linux-module/files/debian/postinst"]}
{"id": "C267", "title": "Packages for another generator of initial RAM disks are reported", "statement": "If a list of packages for an initial RAM disk has packages that are for another generator than the selected one, an error is given for each of them and for no others.", "quantifier": "all generators and lists of packages", "why_tests_cant": "tests try a few lists", "anchors": ["meta/classes-recipe/initramfs.bbclass:do_validate_rootfs_packages"]}
{"id": "C268", "title": "A container image has all files of the root file system but temporary ones", "statement": "A container image has exactly the files of the root file system, with their content, without what is in the directory for temporary files.", "quantifier": "all root file systems and tags", "why_tests_cant": "tests build a few images", "anchors": ["meta/classes-recipe/imagetypes_container.bbclass:do_containerize", "meta/classes-recipe/imagetypes_container.bbclass:convert_container"]}
{"id": "C269", "title": "A container image is there under its tag", "statement": "If the task for container images succeeds, there is exactly one image, it has the tag that was asked for, and this is the one that is deployed.", "quantifier": "all root file systems and tags", "why_tests_cant": "tests use the default tag", "anchors": ["meta/classes-recipe/imagetypes_container.bbclass:do_containerize", "meta/classes-recipe/imagetypes_container.bbclass:convert_container"]}
{"id": "C270", "title": "The identifier of a bill of materials is valid, reproducible and tells builds apart", "statement": "The identifier of a software bill of materials is a valid UUID of version 4 that depends on nothing but the hash of the task, unless the user sets one; builds get the same identifier if and only if their hashes agree in the first 128 bits but the six that are fixed.", "quantifier": "all pairs of hashes", "why_tests_cant": "tests compare a few hashes", "anchors": ["meta/classes/sbom.bbclass:generate_document_uuid", "meta/classes/sbom.bbclass:sbom_doc_uuid"]}
{"id": "C271", "title": "A file is found in the first directory of a search path that has it", "statement": "Looking for a file in a list of directories (BBPATH, PATH, FILESPATH) gives the absolute path of the file in the first directory that has it, or in the last one if the order is reversed, and tells all paths that were tried; nothing is found only if no directory has it.", "quantifier": "all search paths, files and directions", "why_tests_cant": "tests use a few directories", "anchors": ["bitbake/lib/bb/utils.py:which"]}
{"id": "C272", "title": "Whether a directory is below another is decided by identity", "statement": "A path is said to be below another if and only if it or one of the directories above it is the same directory as the other, by whatever name, link or mount.", "quantifier": "all paths and file systems", "why_tests_cant": "tests make a few directories", "anchors": ["bitbake/lib/bb/utils.py:path_is_descendant"]}
{"id": "C273", "title": "The layer of a file is the innermost one that has it", "statement": "A recipe or class is counted to the layer that contains it; if layers are inside of each other, to the inner one.", "quantifier": "all lists of layers, patterns and files", "why_tests_cant": "tests use a few layers", "anchors": ["bitbake/lib/bb/utils.py:get_file_layer", "bitbake/lib/bb/utils.py:get_collection_res"]}
{"id": "C274", "title": "A change of the environment for a block is undone", "statement": "Variables that are set for a block have the given values in it and are afterwards as before, set or not set, however the block ends; other variables are not touched.", "quantifier": "all environments, variables and blocks", "why_tests_cant": "tests run a few blocks", "anchors": ["bitbake/lib/bb/utils.py:environment"]}
{"id": "C275", "title": "A task without the flag network has no network", "statement": "A task that does not have the flag network runs without access to the network.", "quantifier": "all users, files of users and tasks", "why_tests_cant": "tests run as one user", "anchors": ["bitbake/lib/bb/utils.py:is_local_uid", "bitbake/bin/bitbake-worker:fork_off_task"]}
{"id": "C276", "title": "Unpacking the archive of a root file system gives the root file system", "statement": "The archive of an image (or SDK), when unpacked, is the root file system: the same paths with the same files, directories, symbolic and hard links.", "quantifier": "all root file systems", "why_tests_cant": "tests unpack a few images", "anchors": ["meta/classes-recipe/imagetypes.bbclass:IMAGE_CMD:tar", "meta/classes-recipe/imagetypes.bbclass:TAR_TRANSFORM"]}
{"id": "C277", "title": "The content of directories that are left out is not in the compressed file system", "statement": "Nothing below a directory of SQUASHFS_EXCLUDE_DIRS is in the squashfs image, while the directory itself and everything else is.", "quantifier": "all root file systems and lists of directories", "why_tests_cant": "tests look at a few directories", "anchors": ["meta/classes-recipe/squashfs.bbclass:__anonymous", "meta/classes-recipe/squashfs.bbclass:IMAGE_CMD:squashfs"]}
{"id": "C278", "title": "A package of plain files has all files", "statement": "Everything that do_install of a recipe with dpkg-raw puts into its directory is in the package, at the same place.", "quantifier": "all names in the directory", "why_tests_cant": "tests build a few packages", "anchors": ["meta/classes-recipe/dpkg-raw.bbclass:do_prepare_build"]}
{"id": "C279", "title": "Operations on shared tables are done as a whole or not at all", "statement": "Reading, storing, deleting and clearing in a persistent table that several processes use is done exactly once and as a whole, also if the database is locked for a while; an operation that fails has changed nothing.", "quantifier": "all operations, tables and ways of locking", "why_tests_cant": "tests do not produce locks", "anchors": ["bitbake/lib/bb/persist_data.py:SQLTable"]}
{"id": "C280", "title": "All rows of a shared table can be read while others write", "statement": "Iterating over a persistent table gives all rows, also if the database is locked for a while.", "quantifier": "all tables and ways of locking", "why_tests_cant": "tests do not produce locks", "anchors": ["bitbake/lib/bb/persist_data.py:SQLTable._row_iter"]}
{"id": "C281", "title": "A build uses one revision of a repository", "statement": "All recipes and processes of a build that ask for the latest revision of the same repository get the same one, even if there are commits meanwhile.", "quantifier": "all orders of steps of all processes and all answers of the server", "why_tests_cant": "tests cannot produce all orders", "anchors": ["bitbake/lib/bb/fetch2/__init__.py:FetchMethod.latest_revision"]}
{"id": "C282", "title": "Revisions of earlier builds are dropped or kept as wanted and changes are told", "statement": "With BB_SRCREV_POLICY clear, the default, revisions of earlier builds are dropped, with cache they are kept; comparing revisions tells a change if and only if one differs from those at the start.", "quantifier": "all tables and policies", "why_tests_cant": "tests use a few tables", "anchors": ["bitbake/lib/bb/fetch2/__init__.py:fetcher_init", "bitbake/lib/bb/fetch2/__init__.py:fetcher_compare_revisions"]}
{"id": "C283", "title": "The address that a server announces is understood by clients", "statement": "Clients that are given the address that a server announces, for IPv4, IPv6, sockets of Unix or websockets, connect to this server; addresses without a port and of IPv6 without brackets are refused.", "quantifier": "all hosts, ports and paths", "why_tests_cant": "tests use one host", "anchors": ["bitbake/lib/bb/asyncrpc/client.py:parse_address", "bitbake/lib/bb/asyncrpc/serv.py:TCPStreamServer.start"]}
{"id": "C284", "title": "The socket of a server is where its address says", "statement": "A server that is given the path of a socket opens it there, and clients find it.", "quantifier": "all paths", "why_tests_cant": "tests use one path", "anchors": ["bitbake/lib/bb/asyncrpc/serv.py:UnixStreamServer.start", "bitbake/lib/bb/asyncrpc/client.py:AsyncClient.connect_unix"]}
{"id": "C285", "title": "A variable of type list has the items of its text", "statement": "A variable with the type list has as items the words of its value, or what is between its separators, and the text of the list has the same items again; a variable that is not set has none.", "quantifier": "all values and separators", "why_tests_cant": "tests use a few values", "anchors": ["meta/lib/oe/types.py:OEList", "meta/lib/oe/data.py:typed_value", "meta/lib/oe/maketype.py:create"]}
{"id": "C286", "title": "Variables of type boolean and choice have valid values only", "statement": "A variable with the type boolean is true or false for exactly the documented words in large or small letters, one with the type choice is one of its choices; everything else is an error for the user, and a boolean that is not set is false.", "quantifier": "all values and choices", "why_tests_cant": "tests use a few values", "anchors": ["meta/lib/oe/types.py:boolean", "meta/lib/oe/types.py:choice", "meta/lib/oe/data.py:typed_value"]}
{"id": "C287", "title": "The variables an expression refers to are all found", "statement": "The names of the variables that an expression refers to, directly or through the values of others, are all in the result and nothing else is, each once and those that are fewer steps away first; the search also ends when variables refer to each other.", "quantifier": "all expressions and all graphs of references between variables", "why_tests_cant": "tests use a few graphs with up to four variables", "anchors": ["bitbake/lib/bb/utils.py:get_referenced_vars"]}
{"id": "C288", "title": "An archive for virtual machines has the current disk and correct checksums", "statement": "After the image of type ova is built, its archive has first the description, then for the format of VirtualBox a manifest with the checksums of exactly the two other files, then the disk converted from the current image, whatever earlier builds left.", "quantifier": "all images, configurations and leftovers of earlier builds", "why_tests_cant": "needs leftovers of builds with other configurations", "anchors": ["meta/classes-recipe/imagetypes_vm.bbclass:convert_wic", "meta/classes-recipe/imagetypes_vm.bbclass:IMAGE_CMD:ova"]}
{"id": "C289", "title": "Recorded pressure adds up to the growth of the counters", "statement": "For each resource the differences recorded in the build statistics add up to the growth of the kernel's counter from the first sample to the last.", "quantifier": "all sequences of samples", "why_tests_cant": "tests do not run long sequences of samples", "anchors": ["meta/lib/buildstats.py:SystemStats._reduce_pressure"]}
{"id": "C290", "title": "Recorded shares of the processor are shares", "statement": "Each recorded share of processor time is between 0 and 1, and those for users, system and waiting are together at most 1.", "quantifier": "all pairs of samples", "why_tests_cant": "tests use a few samples", "anchors": ["meta/lib/buildstats.py:SystemStats._reduce_stat"]}
{"id": "C291", "title": "Recorded disk data are those of all disks", "statement": "The recorded data for disks count each whole disk of the machine once and no partition.", "quantifier": "all contents of /proc/diskstats", "why_tests_cant": "depends on kernel and disks of the machine", "anchors": ["meta/lib/buildstats.py:SystemStats._diskstats_is_relevant_line", "meta/lib/buildstats.py:SystemStats._reduce_diskstats"]}
{"id": "C292", "title": "Samples are far enough apart and none is missing", "statement": "Two samples of the system state are more than the least distance apart unless the later is forced, every forced call takes one, and at every call there is one at most this distance old.", "quantifier": "all sequences of calls and times", "why_tests_cant": "depends on the times of events", "anchors": ["meta/lib/buildstats.py:SystemStats.sample"]}
{"id": "C293", "title": "A shell for developers is opened in the chosen or the best terminal", "statement": "The terminal set by its name is used when it works; with the setting auto, or when the chosen one is unknown or not supported, the terminal with the highest priority that works is used, and it is an error exactly when none works; with none nothing is started.", "quantifier": "all sets of terminals, priorities and machines", "why_tests_cant": "depends on what is installed", "anchors": ["meta/lib/oe/terminal.py:spawn_preferred", "meta/lib/oe/terminal.py:spawn", "meta/lib/oe/classutils.py:ClassRegistry.prioritized", "meta/classes/terminal.bbclass:oe_terminal"]}
{"id": "C294", "title": "A shell for developers is started once", "statement": "The command of a shell for developers is started in one terminal only.", "quantifier": "all sets of terminals and machines", "why_tests_cant": "depends on what is installed and on the display", "anchors": ["meta/lib/oe/terminal.py:XTerminal", "meta/lib/oe/terminal.py:spawn_preferred"]}
{"id": "C295", "title": "Functions in many processes keep the limit and stop at errors", "statement": "When a function is called for many items in processes, there are never more processes than the number of threads, each item is started at most once, after an error no further item is started, and with a number of at least one it ends when the processes do.", "quantifier": "all items, limits, outcomes and orders in which processes end", "why_tests_cant": "depends on the schedule of processes", "anchors": ["meta/lib/oe/utils.py:multiprocess_launch"]}
{"id": "C296", "title": "Results and errors of all processes are reported", "statement": "When a function has been called for many items in processes, either an error is reported or there is the result of every item.", "quantifier": "all items, limits, outcomes and orders in which processes end", "why_tests_cant": "depends on the schedule of processes and on processes that are killed", "anchors": ["meta/lib/oe/utils.py:multiprocess_launch"]}
{"id": "C297", "title": "The number of parallel jobs is read from the options for make", "statement": "For all options for make, the number of parallel jobs is the one that make would use, and the argument for another program has this number or the limit if it is lower; without the option it is empty.", "quantifier": "all options, formats and limits", "why_tests_cant": "tests use a few options", "anchors": ["meta/lib/oe/utils.py:parallel_make", "meta/lib/oe/utils.py:parallel_make_argument"]}
{"id": "C298", "title": "Features are filled in unless the distribution has decided", "statement": "All features of a variable stay; of those to be filled in exactly those are added that are not there and that the distribution has not considered.", "quantifier": "all values of the three variables", "why_tests_cant": "tests use a few values", "anchors": ["meta/lib/oe/utils.py:features_backfill"]}
{"id": "C299", "title": "A trimmed version has the first parts", "statement": "The parts of a trimmed version are the first ones of the version, as many as wanted or all; a number less than one is an error.", "quantifier": "all versions and numbers of parts", "why_tests_cant": "tests use a few versions", "anchors": ["meta/lib/oe/utils.py:trim_version"]}
{"id": "C300", "title": "Commands under a lock run while it is held and fail visibly", "statement": "Commands given to lockrun run in order while the lock is held, in the wanted way, the lock is released however they end, and a command that fails makes the call fail.", "quantifier": "all scripts and codes with which commands end", "why_tests_cant": "needs failures of each command", "anchors": ["scripts/lockrun.py", "bitbake/lib/bb/utils.py:fileslocked", "meta/classes-recipe/image-tools-extension.bbclass:imager_run"]}
