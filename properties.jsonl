{"id": "C01", "title": "Page-index fill writes exactly the requested pages", "statement": "Recording an owner for n consecutive pages sets exactly those n page-index entries to that owner and leaves every other entry alone, whatever the alignment of the first entry and whether n is even or odd (the code fills in doubled machine words with ragged head and tail).", "quantifier": "every page index content, start page, length up to the sanity bound, owner number", "why_tests_cant": "Off-by-one head/tail handling only shows for particular alignment/parity/length combinations over a table of 2^36 entries.", "anchors": ["src/pageindex.c:memset_bigalloc"]}
{"id": "C02", "title": "Address lookup returns the deepest live big allocation", "statement": "After any successful history of creating, deleting, extending, truncating and splitting big allocations, looking up an address returns the innermost live big allocation whose [begin,end) contains it, and nothing exactly when no live big allocation contains it.", "quantifier": "every finite history of big-allocation operations accepted by the library, every address", "why_tests_cant": "Depends on the entire history of nested, non-page-aligned regions; the number of histories is unbounded.", "anchors": ["src/pageindex.c:__lookup_deepest_bigalloc", "src/pageindex.c:find_deepest_bigalloc", "src/pageindex.c:__liballocs_new_bigalloc", "src/pageindex.c:__liballocs_delete_bigalloc_at"]}
{"id": "C03", "title": "The allocation tree stays a tree", "statement": "After any such history the live big allocations form a forest: every child lies within its parent, siblings do not overlap, parent/child links agree in both directions, and every child is reachable from its parent's child list exactly once.", "quantifier": "every finite history of big-allocation operations", "why_tests_cant": "A corrupted link shows up only after some later operation on a particular neighbour.", "anchors": ["src/pageindex.c:bigalloc_init_nomemset", "src/pageindex.c:add_child", "src/pageindex.c:unlink_child", "src/pageindex.c:__liballocs_sanity_check_bigalloc"]}
{"id": "C04", "title": "Deleting a big allocation removes exactly its subtree", "statement": "Deleting a big allocation removes it and all its descendants, calls each removed allocation's private-data destructor exactly once, hands the pages back to the parent, and leaves every other allocation and every page outside the deleted range unchanged.", "quantifier": "every well-formed allocation forest, every live allocation in it except the library's own private heap (the fixed start of the top-level list)", "why_tests_cant": "Recursion over arbitrarily deep and wide trees; leaks or double frees only appear with particular tree shapes.", "anchors": ["src/pageindex.c:bigalloc_del", "src/pageindex.c:__liballocs_delete_bigalloc_at"]}
{"id": "C05", "title": "Resizing a big allocation changes ownership only of the resized part", "statement": "Extending, pre-extending, truncating or setting the end of a big allocation changes the owner only of pages in the gained or lost part: lost pages go to the parent, gained whole pages go to the resized allocation, nothing else changes.", "quantifier": "every well-formed state, every accepted new boundary (page aligned or not)", "why_tests_cant": "Boundaries need not be page aligned; errors show only for particular partial-page offsets.", "anchors": ["src/pageindex.c:__liballocs_extend_bigalloc", "src/pageindex.c:__liballocs_pre_extend_bigalloc", "src/pageindex.c:__liballocs_truncate_bigalloc_at_end", "src/pageindex.c:__liballocs_truncate_bigalloc_at_beginning"]}
{"id": "C06", "title": "Splitting a big allocation is a partition", "statement": "Splitting a big allocation at a page boundary yields two adjacent allocations that together cover exactly the original range with the same metadata; children follow the half they lie in; the page index sends each page to the deepest covering allocation as before.", "quantifier": "every well-formed state, every live allocation, every interior page boundary not cutting a child", "why_tests_cant": "Children can be arranged arbitrarily around the boundary.", "anchors": ["src/pageindex.c:__liballocs_split_bigalloc_at_page_boundary"]}
{"id": "C07", "title": "The list of top-level mappings is sorted and complete", "statement": "After any history of adding and removing top-level mappings, walking the list forwards and backwards visits every top-level mapping exactly once in address order.", "quantifier": "every finite history of adding/removing disjoint top-level mappings", "why_tests_cant": "Insertion position depends on all earlier mappings.", "anchors": ["src/pageindex.c:add_toplevel", "src/pageindex.c:unlink_toplevel", "src/pageindex.c:sanity_check_bigallocs_toplevel"]}
{"id": "C08", "title": "Nearest-mapping queries return the nearest mapping", "statement": "Asking for the mapping at or above an address returns the live top-level mapping containing the address or else the lowest one starting above it, and nothing only when there is none; asking for the mapping below returns the highest mapping ending at or below the address.", "quantifier": "every sorted list of top-level mappings, every query address", "why_tests_cant": "Boundary cases (address below all mappings, inside one, exactly at an edge) combine with every list position.", "anchors": ["src/pageindex.c:__liballocs_find_mapping_at_or_above", "src/pageindex.c:__liballocs_find_mapping_below", "src/pageindex.c:find_toplevel_lowest_ge", "src/pageindex.c:find_toplevel_highest_lt"]}
{"id": "C09", "title": "Common ancestor query returns the nearest common ancestor", "statement": "For two big allocations the common-parent query returns the deepest big allocation that is an ancestor-or-self of both, and nothing when they share none.", "quantifier": "every forest, every pair of allocations at any depths", "why_tests_cant": "Trees of unbounded depth; the interesting cases have unequal depths.", "anchors": ["src/pageindex.c:__liballocs_get_common_parent_bigalloc", "src/pageindex.c:get_common_parent_bigalloc_recursive"]}
{"id": "C10", "title": "Interior-pointer lookup finds the live heap chunk", "statement": "After any history of chunk insertions, deletions and resizes reported by a malloc, looking up an address that lies inside a live indexed chunk returns that chunk's start.", "quantifier": "every history of index notifications for non-overlapping aligned chunks, every interior address", "why_tests_cant": "Bitmap search crosses word boundaries and skips; correctness depends on the whole set of live chunks.", "anchors": ["include/generic_malloc_index.h:index_insert", "include/generic_malloc_index.h:lookup_object_info_via_bitmap", "include/generic_malloc_index.h:index_delete"]}
{"id": "C11", "title": "Freed heap chunks stop being found", "statement": "After a chunk is freed (deleted from the index), no lookup returns that chunk any more until a new chunk is allocated at that address.", "quantifier": "every history of index notifications, including chunks big enough to be promoted to big allocations", "why_tests_cant": "Stale entries only matter for later allocation patterns.", "anchors": ["include/generic_malloc_index.h:index_delete", "include/generic_malloc_index.h:__generic_malloc_index_insert"]}
{"id": "C12", "title": "Heap metadata word round-trips", "statement": "The allocation site stored in a chunk's metadata word is read back unchanged for every user-space address; after the site is resolved, the stored type pointer and site id are read back unchanged and the word is recognised as typed.", "quantifier": "every 47-bit address, every 8-aligned type address, every 15-bit site id, every lifetime bit pattern", "why_tests_cant": "2^64 possible words; bit-field overlap errors affect only some bit patterns.", "anchors": ["include/malloc-meta.h:struct insert", "include/malloc-meta.h:INSERT_IS_WITH_TYPE", "include/malloc-meta.h:UNIQTYPE_SHIFT_FOR_INSERT"]}
{"id": "C13", "title": "Metadata never overlaps the caller's bytes", "statement": "For every request size, the chunk obtained by padding for the metadata trailer has room for the caller's bytes followed by the metadata word, the two do not overlap, and the size reported back is at least what was asked for and excludes the trailer.", "quantifier": "every request size and alignment, every usable size the underlying malloc may return for it", "why_tests_cant": "Arithmetic over all sizes including values close to overflow.", "anchors": ["include/malloc-meta.h:CHUNK_SIZE_WITH_TRAILER", "include/malloc-meta.h:caller_usable_size_for_chunk_and_usable_size", "include/generic_malloc_index.h:__generic_malloc_get_info"]}
{"id": "C14", "title": "Stack allocation sizing leaves room for header, object and trailer", "statement": "For every requested alloca size and every suitably aligned block of the adjusted size, the adjusted user pointer is 16-byte aligned, the size header just below it and the object plus its metadata word all lie inside the block.", "quantifier": "every requested size, every block address the compiler may produce", "why_tests_cant": "Depends on address modulo 16 and size modulo 16 for all sizes.", "anchors": ["include/liballocs_cil_inlines.h:__liballocs_alloca_size", "include/liballocs_cil_inlines.h:__liballocs_notify_and_adjust_alloca"]}
{"id": "C15", "title": "Alloca index growth keeps existing chunks", "statement": "When a stack frame's index grows downwards, exactly the same chunk addresses are indexed before and after, and the newly covered range has none.", "quantifier": "every bitmap content, every old and new frame start", "why_tests_cant": "Bit positions are relative to a base that moves; errors only appear for particular base offsets.", "anchors": ["src/allocators/alloca.c:realloc_bitmap_prepend", "src/allocators/alloca.c:ensure_arena_covers_addr"]}
{"id": "C16", "title": "Leaving a frame unindexes exactly its alloca chunks", "statement": "On frame exit, walking up from the stack pointer removes exactly the chunks that the frame's byte counter accounts for and leaves all older chunks indexed.", "quantifier": "every set of indexed chunks, every counter value equal to a sum of the newest chunks' sizes", "why_tests_cant": "Number and sizes of alloca chunks per frame are unbounded.", "anchors": ["src/allocators/alloca.c:__liballocs_unindex_stack_objects_counted_by"]}
{"id": "C17", "title": "Memory-table addressing round-trips", "statement": "For a memory table covering an address range at a given granularity, every covered address maps to an entry inside the table, the entry maps back to the range containing the address, the offset within the range is right, and two addresses share an entry exactly when they fall in the same granule.", "quantifier": "every covered address range, granularity, entry size, address", "why_tests_cant": "Arithmetic over the whole address space.", "anchors": ["include/memtable.h:memtable_index", "include/memtable.h:memtable_addr_with_type", "include/memtable.h:memtable_entry_range_base"]}
{"id": "C18", "title": "Sorted metadata search returns the last entry at or below the address", "statement": "Looking up an address in the sorted per-segment metadata vector gives the index of the last entry whose start is at or below it, and 'none' exactly when every entry starts above it.", "quantifier": "every sorted vector, every address", "why_tests_cant": "Binary search over vectors of any length with arbitrary gaps.", "anchors": ["include/metavec.h:DEFINE_META_VEC_FUNCS"]}
{"id": "C19", "title": "Subobject search visits exactly the subobjects spanning an offset", "statement": "Walking the subobjects that span an offset within a type visits exactly the members (or the one array element) whose byte range contains the offset, at the right offsets, recursively, and stops when the callback says so.", "quantifier": "every finite type description with members sorted by offset, every offset", "why_tests_cant": "Types nest to arbitrary depth with arbitrary overlap (unions, padding).", "anchors": ["include/liballocs.h:__liballocs_walk_subobjects_spanning_rec", "include/liballocs.h:__liballocs_first_subobject_spanning"]}
{"id": "C20", "title": "Finding a matching subobject is sound and complete along the leftmost path", "statement": "If the search for a subobject of a given type at an offset succeeds, the result really is a subobject of that type at that offset; if it fails, no type on the chain of subobjects spanning the offset matches.", "quantifier": "every finite type description, target type and offset", "why_tests_cant": "Nested types of arbitrary depth.", "anchors": ["include/liballocs.h:__liballocs_find_matching_subobject"]}
{"id": "C21", "title": "A mapping sequence stays contiguous and within capacity", "statement": "Whenever recording a new memory mapping in a mapping sequence succeeds, the sequence is again a run of non-empty contiguous mappings from its begin to its end, with at most the fixed number of entries; when it refuses, the sequence is unchanged.", "quantifier": "every well-formed sequence, every new mapping range, permissions and backing file", "why_tests_cant": "Case analysis on partial overlaps at both ends and on slot counts.", "anchors": ["src/allocators/mmap.c:augment_sequence", "src/allocators/mmap.c:check_mapping_sequence_sanity"]}
{"id": "C22", "title": "Recording a mapping replaces exactly its range", "statement": "After a successful recording of a mapping, every address in the new range has the new attributes and every other address has the attributes it had before.", "quantifier": "every well-formed sequence, every new mapping, every address", "why_tests_cant": "Splitting, trimming and deleting entries interact; errors appear at particular overlaps only.", "anchors": ["src/allocators/mmap.c:augment_sequence"]}
{"id": "C23", "title": "Unmapping removes exactly the unmapped range", "statement": "Deleting a range from a mapping sequence leaves the attributes of all addresses outside the range unchanged and leaves no attributes inside it.", "quantifier": "every well-formed sequence, every range that does not fall strictly inside one mapping, every address", "why_tests_cant": "Same as above.", "anchors": ["src/allocators/mmap.c:delete_mapping_sequence_span", "src/allocators/mmap.c:do_munmap"]}
{"id": "C24", "title": "Unmapping updates the set of known mappings like the kernel does", "statement": "After notification of munmap(addr,len), an address is known mapped iff it was before and it is outside the page-rounded unmapped range.", "quantifier": "every set of top-level mappings, every page-aligned addr, every len, every address", "why_tests_cant": "A range can cut, span, or punch holes in any number of mappings.", "anchors": ["src/allocators/mmap.c:do_munmap", "src/allocators/mmap.c:__mmap_allocator_notify_munmap"]}
{"id": "C25", "title": "Heap-break changes keep the break area inside its mapping", "statement": "Across any history of program-break growth and shrinkage, the break allocation always lies inside its containing mapping and ends at the current break, and the mapping ends at the break rounded up to a page.", "quantifier": "every history of break changes", "why_tests_cant": "The order of the two updates must differ between growth and shrinkage at every intermediate step.", "anchors": ["src/allocators/brk.c:__brk_allocator_notify_brk", "src/allocators/mmap.c:__mmap_allocator_notify_brk"]}
{"id": "C26", "title": "Small-object index agrees with the live set", "statement": "After any history of inserting and removing small objects in a chunk, a lookup of an address returns the live object containing it and fails when no live object contains it.", "quantifier": "every history of inserts and removals of non-overlapping objects, every address", "why_tests_cant": "Objects straddle bucket boundaries; lookups depend on all previous bucket contents.", "anchors": ["src/allocators/generic_small.c:index_small_alloc_internal", "src/allocators/generic_small.c:lookup_small_alloc", "src/allocators/generic_small.c:unindex_small_alloc_internal"]}
{"id": "C27", "title": "The lookup cache's bookkeeping never breaks", "statement": "Under any interleaving of lookups, insertions and invalidations, the recency list visits exactly the valid entries, once each, in both directions, most recent first, and an insertion into a full cache replaces exactly the least recently used entry.", "quantifier": "every history of cache operations", "why_tests_cant": "The list is threaded through a fixed array by index; corruption shows only after specific histories.", "anchors": ["include/liballocs_cil_inlines.h:__liballocs_cache_with_type", "include/liballocs_cil_inlines.h:__liballocs_cache_bump_mru", "include/liballocs_cil_inlines.h:__liballocs_cache_unlink"]}
{"id": "C28", "title": "A cache hit is a previously cached, still valid object containing the address", "statement": "Every cache hit returns an entry that was inserted earlier, has not been invalidated or evicted since, has the requested type if one was requested, and really covers the queried address at its period.", "quantifier": "every history of cache operations, every query", "why_tests_cant": "Hits depend on the whole history.", "anchors": ["include/liballocs_cil_inlines.h:__liballocs_memrange_cache_lookup", "include/liballocs_cil_inlines.h:__liballocs_memrange_cache_lookup_notype"]}
{"id": "C29", "title": "Invalidating a range removes every cached fact about it", "statement": "After invalidating a range, no lookup of an address in that range hits an entry cached before.", "quantifier": "every cache state, every range, every address in it", "why_tests_cant": "The overlap of an entry with the range can take many forms.", "anchors": ["src/cache.c:__liballocs_uncache_all"]}
{"id": "C30", "title": "Base query is independent of earlier queries", "statement": "Asking for the base of the allocation containing an address gives the same answer whether or not earlier queries populated the cache.", "quantifier": "every history of queries and allocation events", "why_tests_cant": "Requires comparing all query orders.", "anchors": ["src/query.c:__liballocs_get_base"]}
{"id": "C31", "title": "Allocation-site ids round-trip", "statement": "Every allocation site of every loaded file has an id, ids of different sites differ, and mapping a site to its id and back gives the same site.", "quantifier": "every sequence of loaded files with any numbers of sites, every site", "why_tests_cant": "Id ranges depend on the full load history.", "anchors": ["src/allocsites.c:__liballocs_allocsite_id", "src/allocsites.c:__liballocs_allocsite_by_id", "src/allocsites.c:init_allocsites_info"]}
{"id": "C32", "title": "Unknown allocation sites are reported as unknown", "statement": "Looking up an address that is not an allocation site does not return some other site's entry.", "quantifier": "every sorted site table, every address", "why_tests_cant": "Every gap between sites has to be right.", "anchors": ["src/allocsites.c:__liballocs_find_allocsite_entry_at"]}
{"id": "C33", "title": "Packed-sequence element queries do not depend on query order", "statement": "Querying an address inside a packed sequence gives the element that contains it, with its true start, size and type, no matter which addresses were queried before.", "quantifier": "every sequence of elements, every history of queries", "why_tests_cant": "Elements are discovered and cached lazily; results could depend on any earlier query.", "anchors": ["src/allocators/packed-seq.c:__packed_seq_get_info", "src/allocators/packed-seq.c:ensure_cached_up_to"]}
{"id": "C34", "title": "Packed-sequence walks report each element's own metadata", "statement": "Walking a packed sequence reports every element in the range exactly once, in order, with its own start, size and type.", "quantifier": "every sequence, every range", "why_tests_cant": "Bugs only show on second and later elements or after partial walks.", "anchors": ["src/allocators/packed-seq.c:__packed_seq_walk_allocations"]}
{"id": "C35", "title": "An object is freed exactly when its last lifetime policy is removed", "statement": "Under any history of attaching and detaching lifetime policies, the object is freed at the detach that removes its last policy, and at no other moment.", "quantifier": "every history of attach/detach on an object", "why_tests_cant": "Unbounded histories.", "anchors": ["src/lifetime_policies.c:__liballocs_attach_lifetime_policy", "src/lifetime_policies.c:__liballocs_detach_lifetime_policy"]}
{"id": "C36", "title": "Registered lifetime policies get distinct usable ids", "statement": "Every successful registration of a lifetime policy returns a fresh id that fits the policy table; once the table is full registration fails without writing anything.", "quantifier": "every sequence of registrations", "why_tests_cant": "The failure appears only at the boundary and beyond.", "anchors": ["src/lifetime_policies.c:__liballocs_register_gc_policy"]}
{"id": "C37", "title": "Copy notification covers exactly the copied bytes", "statement": "Notifying a copy of n bytes reports a pointer write for each pointer-typed slot lying wholly in the copied range and for none outside it.", "quantifier": "every type layout, every n", "why_tests_cant": "Types of arbitrary shape; n can end in the middle of any member.", "anchors": ["src/lifetime_policies.c:__notify_copy", "src/lifetime_policies.c:notify_copy_for_type"]}
{"id": "C38", "title": "Reference counting callbacks balance", "statement": "For any history of pointer-slot writes, the number of add-reference minus drop-reference callbacks for an object equals the number of slots currently pointing to it, and an object still pointed to is never dropped to zero in between.", "quantifier": "every history of pointer writes including self-assignment", "why_tests_cant": "Order of callbacks matters for aliasing cases.", "anchors": ["src/lifetime_policies.c:__notify_ptr_write"]}
{"id": "C39", "title": "Object-graph traversal visits each reachable object once", "statement": "Breadth-first traversal from a root visits every object reachable through pointers exactly once, in order of distance, and terminates.", "quantifier": "every finite object graph, including cyclic ones", "why_tests_cant": "Graphs of arbitrary shape.", "anchors": ["src/uniqtype-bfs.c:__uniqtype_process_bfs_queue"]}
{"id": "C40", "title": "Depth-first walk is pre-order with pruning and early stop", "statement": "A depth-first walk calls the callback on every allocation before its sub-allocations, skips exactly the subtree of an allocation for which the callback asks to, and stops immediately, returning the callback's value, when told to stop.", "quantifier": "every allocation tree, every callback", "why_tests_cant": "Trees of unbounded depth and arbitrary callback behaviours.", "anchors": ["src/walk.c:__liballocs_walk_allocations_df", "src/walk.c:walk_one_df_cb"]}
{"id": "C41", "title": "Walking one level reports every child once in address order", "statement": "Walking the allocations directly inside a big allocation reports each child big allocation and each suballocated chunk in the range exactly once.", "quantifier": "every big allocation, every set of children in any creation order, every range", "why_tests_cant": "Depends on the order in which children were created.", "anchors": ["src/walk.c:__liballocs_walk_allocations"]}
{"id": "C42", "title": "Array-type creation is memoised correctly", "statement": "Requesting the array type of a given element type and length always returns a type with exactly that element type and length, and the same one every time.", "quantifier": "every history of type requests", "why_tests_cant": "Memoisation is by name; collisions show only for particular earlier requests.", "anchors": ["src/uniqtype-util.c:__liballocs_get_or_create_array_type"]}
{"id": "C43", "title": "Private heap break never leaves its arena", "statement": "The emulated break of the internal heap always stays within the arena; a request either moves the break by exactly the increment and returns the old break, or fails and changes nothing, including on arithmetic overflow.", "quantifier": "every arena, every history of 64-bit signed increments", "why_tests_cant": "2^64 increments and unbounded histories.", "anchors": ["src/dlmalloc-ext.c:emulated_sbrk"]}
{"id": "C44", "title": "Private-heap index tracks live chunks", "statement": "After any history of private-heap calls, the index marks exactly the starts of live chunks.", "quantifier": "every history of malloc/calloc/realloc/free/memalign/posix_memalign calls with any success/failure outcome", "why_tests_cant": "Failure paths are rarely exercised.", "anchors": ["src/dlmalloc-ext.c:set_metadata", "src/dlmalloc-ext.c:clear_metadata", "src/dlmalloc-ext.c:__wrap_dlrealloc", "src/dlmalloc-ext.c:__wrap_dlposix_memalign"]}
{"id": "C45", "title": "Address lists are duplicate-aware sets", "statement": "After any history of additions, membership holds exactly for the added addresses, and the storage always has room for the recorded count.", "quantifier": "every history of additions, every address", "why_tests_cant": "Unbounded growth across reallocations.", "anchors": ["src/addrlist.c:__liballocs_addrlist_add", "src/addrlist.c:__liballocs_addrlist_contains"]}
{"id": "C46", "title": "Linker-malloc index finds the chunk containing an address", "statement": "In the linear index kept for the dynamic linker's malloc, a lookup returns the recorded chunk containing the address, and nothing when no recorded chunk contains it.", "quantifier": "every sorted record sequence, every address", "why_tests_cant": "Binary search over any number of records.", "anchors": ["include/linear_malloc_index.h:find_linear_malloc_rec"]}
{"id": "C47", "title": "Startup-vector queries classify every byte correctly", "statement": "A query for an address in the process start-up area returns the vector (auxv, argv, env, strings, argc) that contains it with its true base and size.", "quantifier": "every layout of the start-up area, every address in it", "why_tests_cant": "Every boundary byte of every region.", "anchors": ["src/allocators/auxv.c:get_info"]}
{"id": "C48", "title": "Stack-frame search returns the frame containing the address", "statement": "A stack query returns a frame whose described extent contains the address whenever it succeeds, and never reports a frame beyond the address.", "quantifier": "every chain of frames with any described extents, every address", "why_tests_cant": "Frames vary in size, order and presence of descriptions.", "anchors": ["src/allocators/stackframe.c:get_info"]}
{"id": "C49", "title": "Static-object lookup returns the object containing the address", "statement": "A query for an address inside a loaded file's static data returns the symbol whose extent contains it and fails in gaps.", "quantifier": "every sorted table of static objects, every address", "why_tests_cant": "Every gap and edge address.", "anchors": ["src/allocators/static-symbol.c:do_lookup"]}
{"id": "C50", "title": "Looking at or setting an object's type leaves its lifetime alone", "statement": "Querying a heap object, or setting its type, does not change which lifetime policies are attached to it.", "quantifier": "every metadata word, every type, every resolution outcome, debug and release builds", "why_tests_cant": "The packed word has too many states to try and the loss only matters at a later free.", "anchors": ["include/malloc-meta.h:extract_and_output_alloc_site_and_type", "include/generic_malloc_index.h:__generic_heap_set_type"]}
{"id": "C51", "title": "A new heap object starts with exactly the initial lifetime policies", "statement": "Right after allocation, the policies attached to a heap object are exactly the initial ones, whatever bytes the memory held before.", "quantifier": "every previous content of the metadata word, every call site", "why_tests_cant": "Depends on leftover memory contents.", "anchors": ["tools/stubgen.h:post_successful_alloc", "include/generic_malloc_index.h:__generic_malloc_index_insert"]}
{"id": "C52", "title": "Metadata read for an object is the metadata written for it", "statement": "The metadata word consulted when querying a heap object lies where the word was written when it was allocated, also for objects promoted to big allocations.", "quantifier": "every address, requested size and usable size", "why_tests_cant": "Depends on how much slack the underlying malloc leaves.", "anchors": ["include/generic_malloc_index.h:__generic_malloc_get_info", "include/malloc-meta.h:insert_for_chunk_and_caller_usable_size"]}
{"id": "C53", "title": "An address in no live chunk is not attributed to a chunk", "statement": "A query for an address inside the arena but outside every live heap chunk does not report a chunk.", "quantifier": "every heap history, every address", "why_tests_cant": "Unbounded histories; every gap byte.", "anchors": ["include/generic_malloc_index.h:__generic_malloc_get_info"]}
{"id": "C54", "title": "Private-heap usable size is never smaller than the request", "statement": "The usable size reported for a private-heap chunk is at least the size that was requested for it, before and after a resize.", "quantifier": "every request size, every size the underlying allocator rounds up to, every resize", "why_tests_cant": "The metadata trailer is subtracted from a size that depends on the underlying allocator's rounding.", "anchors": ["src/dlmalloc-ext.c:__wrap_dlmalloc_usable_size"]}
{"id": "C55", "title": "Pointer-type creation is memoised correctly", "statement": "Requesting the type of pointers to a given type always returns a pointer type with exactly that target, the right ultimate pointee and indirection count, and the same one every time.", "quantifier": "every history of type requests", "why_tests_cant": "Memoisation is by name; collisions show only for particular earlier requests.", "anchors": ["src/uniqtype-util.c:__liballocs_get_or_create_address_type"]}
{"id": "C56", "title": "Union-type creation is memoised correctly", "statement": "Requesting the union of given types always returns a union of exactly those types, as large as the largest of them, and the same one every time.", "quantifier": "every history of type requests", "why_tests_cant": "Memoisation is by concatenated names; collisions show only for particular names.", "anchors": ["src/uniqtype-util.c:__liballocs_get_or_create_union_type"]}
{"id": "C57", "title": "Allocating over unfreed small objects forgets exactly those", "statement": "Indexing a small object over live ones (as after a garbage collection that was not notified) removes exactly the objects it overlaps from the index; all others are still found.", "quantifier": "every history, every new object, every address", "why_tests_cant": "Overlaps at every position relative to bucket boundaries.", "anchors": ["src/allocators/generic_small.c:unindex_all_overlapping", "src/allocators/generic_small.c:__index_small_alloc"]}
{"id": "C58", "title": "Creating a big allocation takes exactly its range", "statement": "A new big allocation has the range and metadata asked for, is linked below the given parent or else below the innermost allocation containing it, takes over lookups of exactly its range, and leaves every other allocation and lookup unchanged.", "quantifier": "every well-formed state with a free slot, every range that lies in its parent and apart from its siblings", "why_tests_cant": "The parent is found through the page index and a tree walk whose shapes are unbounded; partial pages are not in the page index at all.", "anchors": ["src/pageindex.c:__liballocs_new_bigalloc", "src/pageindex.c:bigalloc_init", "src/pageindex.c:add_child", "src/pageindex.c:add_toplevel"]}
{"id": "C59", "title": "Lookups by allocator, by top level and of the leaf allocator are exact", "statement": "Looking up an address by allocator (or suballocator) returns the outermost live big allocation of that allocator containing it, or nothing when there is none; the lookup by allocator that starts at the owner of the address's page returns the outermost such allocation that is that owner or lies below it; the top-level lookup returns the top-level mapping containing it; the leaf allocator of an address is the suballocator, or else the allocator, of the innermost big allocation containing it.", "quantifier": "every history of big-allocation operations, every address, every allocator", "why_tests_cant": "Depends on all earlier nesting and on who owns each level.", "anchors": ["src/pageindex.c:find_bigalloc_recursive", "src/pageindex.c:__lookup_bigalloc_from_root", "src/pageindex.c:__lookup_bigalloc_under_pageindex", "src/pageindex.c:__lookup_bigalloc_top_level", "include/pageindex.h:__liballocs_leaf_allocator_for"]}
{"id": "C60", "title": "Deleting everything that overlaps a range is exact", "statement": "Deleting all big allocations overlapping a range deletes exactly the trees whose top-level mapping overlaps the range, with each destructor called once, and afterwards nothing contains any address of the range.", "quantifier": "every history of big-allocation operations, every range not meeting the library's own heap", "why_tests_cant": "Arbitrary arrangements of mappings and gaps in and around the range.", "anchors": ["src/pageindex.c:__liballocs_delete_all_bigallocs_overlapping_range"]}
{"id": "C61", "title": "Deleting by address deletes the right allocation", "statement": "Deleting the big allocation at an address for an allocator deletes exactly the subtree of the outermost allocation of that allocator containing the address, and reports failure, changing nothing, when there is none.", "quantifier": "every history of big-allocation operations, every address and allocator except the library's own heap", "why_tests_cant": "Depends on the whole nesting at the address.", "anchors": ["src/pageindex.c:__liballocs_delete_bigalloc_at"]}
{"id": "C62", "title": "The library's own consistency checks never fire under proper use", "statement": "As long as callers create allocations inside their parents and apart from siblings, and resize and split without cutting children, no operation aborts or fails an assertion, and the run-time sanity check passes for every slot after every operation.", "quantifier": "every history of properly used big-allocation operations, every slot", "why_tests_cant": "Assertions are compiled out of release builds and only fire on states tests happen to reach.", "anchors": ["src/pageindex.c:sanity_check_bigalloc", "src/pageindex.c:memset_bigalloc", "src/pageindex.c:add_child", "src/pageindex.c:unlink_child"]}
{"id": "C63", "title": "A new mapping in free address space is recorded exactly", "statement": "Notifying a successful mmap whose page-rounded range meets no known mapping always completes; afterwards every address of the range is known with the given protection, flags, file, file position and caller, whether the mapping was merged with a neighbouring sequence or not, and every other address is known exactly as before.", "quantifier": "every well-formed set of known mappings, every free page-aligned range, every protection, flags, file, offset and caller", "why_tests_cant": "Whether the mapping is merged into the preceding sequence depends on all earlier mappings, their files, offsets and number.", "anchors": ["src/allocators/mmap.c:do_mmap", "src/allocators/mmap.c:__mmap_allocator_notify_mmap", "src/allocators/mmap.c:augment_sequence"]}
{"id": "C64", "title": "A mapping over known mappings replaces exactly its range", "statement": "A fixed mmap over known mappings is recorded so that its page-rounded range has the new attributes and every other address the old ones; without MAP_FIXED an overlap is a fatal error and is never recorded.", "quantifier": "every well-formed set of known mappings, every page-aligned range", "why_tests_cant": "Overlaps can begin, end or lie anywhere in any number of known mappings and entries.", "anchors": ["src/allocators/mmap.c:do_mmap", "src/allocators/mmap.c:augment_sequence"]}
{"id": "C65", "title": "Remapping carries the record of a mapping along", "statement": "After mremap, what is known agrees with what the kernel did: a range resized in place is known to its new page-rounded size, a moved range is known at the new place address for address with the attributes of the old and no longer at the old place (unless the old is kept), added pages continue the mapping, and no other address changes.", "quantifier": "every well-formed set of known mappings, every old and new address and size the kernel accepts", "why_tests_cant": "Combines resizing, moving, splitting and merging of sequences of any length.", "anchors": ["src/allocators/mmap.c:__mmap_allocator_notify_mremap", "src/allocators/mmap.c:do_mmap", "src/allocators/mmap.c:do_munmap"]}
{"id": "C66", "title": "Mappings are grouped by file, and only as the grouping rules say", "statement": "A mapping that lies inside a known mapping sequence, or begins where it ends, joins the sequence exactly when there is room and it is of the same file, or is nameless memory that either extends a nameless sequence, is inaccessible, or follows (or replaces a tail of) file contents mapped by the same object; otherwise the sequence is unchanged. No sequence mixes two files, and nameless memory stays at the end.", "quantifier": "for all sequences, requests and caller-to-object maps", "why_tests_cant": "The rule is a conjunction over edges, callers, names and spare entries; tests with a loader exercise a few of the combinations, and the wrong grouping only shows when another object is mapped next to this one.", "anchors": ["src/allocators/mmap.c:augment_sequence"]}
{"id": "C67", "title": "An address below a stack is taken for the stack's only if the stack could have grown to it", "statement": "When a query meets an address that belongs to no known allocation, it is given to a stack exactly when it lies below the stack, near enough for the stack size limits, with no known allocation in between; then the stack is known to begin at that page and nothing else changes. Otherwise the query reports no allocation and nothing changes.", "quantifier": "for all reachable allocation trees, all stacks, limits and addresses", "why_tests_cant": "Depends on everything that happens to be indexed between the address and the stack, and on limits of the environment.", "anchors": ["src/allocators/stack.c:__stack_allocator_notify_unindexed_address", "src/pageindex.c:__liballocs_notify_unindexed_address", "include/liballocs.h:__liballocs_get_alloc_info"]}
{"id": "C68", "title": "The lazily mapped page index reads as an array of zeros plus what was stored", "statement": "The memory of the page index is backed piece by piece at first touch, yet for any history of loads and stores every access succeeds, every load gives the last value stored there or zero, and memory outside the index is never altered.", "quantifier": "for all histories of accesses, of any length and order", "why_tests_cant": "Whether mapping a piece destroys earlier contents or neighbouring memory depends on the order in which pieces are first touched.", "anchors": ["src/pageindex.c:deferred_mapping_handle_signal", "src/pageindex.c:find_deferred_mapping"]}
{"id": "C69", "title": "A program's system calls act as they would without the library", "statement": "Under system call trapping, for any program that decides each call by earlier answers, the kernel receives the same calls and the program the same answers as without the library.", "quantifier": "for all kernels, programs and numbers of steps", "why_tests_cant": "A test compares one program on one kernel; an altered argument shows only for particular callers, flags and addresses.", "anchors": ["src/systrap.c:mmap_replacement", "src/systrap.c:munmap_replacement", "src/systrap.c:mremap_replacement", "src/systrap.c:brk_replacement", "src/systrap.c:open_replacement", "src/systrap.c:openat_replacement", "src/systrap.c:local_liballocs_nudge_mmap"]}
{"id": "C70", "title": "The allocators are told of exactly the changes the kernel made to the memory map", "statement": "For every trapped system call, the allocators are notified once of the call that was really performed, with its answer, exactly if the kernel carried it out, and never of a call that failed.", "quantifier": "for all calls, callers, answers and kernels", "why_tests_cant": "Failing calls and altered arguments are rare in tests, and a missed notification shows only much later in a wrong query.", "anchors": ["src/systrap.c:mmap_replacement", "src/systrap.c:munmap_replacement", "src/systrap.c:mremap_replacement", "src/systrap.c:brk_replacement", "src/systrap.c:mprotect_replacement", "src/systrap.c:__liballocs_systrap_init"]}
{"id": "C71", "title": "The library's own mmap does the same as a trapped mmap", "statement": "mmap as defined by the library performs the same call as a trapped one and notifies the same; on failure it returns MAP_FAILED and sets errno to the kernel's error.", "quantifier": "for all arguments, callers and kernel answers", "why_tests_cant": "Errors of mmap can hardly be provoked in tests, in particular not each of them.", "anchors": ["src/preload.c:mmap", "src/systrap.c:mmap_replacement"]}
{"id": "C72", "title": "Unplaced mappings by the library itself are asked for at disjoint page-aligned places, and mappings for libdlbind are shared", "statement": "The library's own mmap calls that leave the place open ask for places one above the other that never overlap; every other request is unaltered. While libdlbind opens an object, mappings become shared and files are opened for reading and writing, with all other flags kept.", "quantifier": "for all sequences of requests", "why_tests_cant": "The place depends on all earlier requests.", "anchors": ["src/systrap.c:local_liballocs_nudge_mmap", "src/systrap.c:__liballocs_nudge_open", "src/systrap.c:__liballocs_nudge_openat"]}
{"id": "C73", "title": "A program cannot displace the trap handler, and its other signal handlers are its own", "statement": "After any sequence of signal and sigaction calls the handler of SIGILL is still the library's, every other signal has the handler last requested, and every answer tells the handler that was there before.", "quantifier": "for all sequences of requests", "why_tests_cant": "Sequences are unbounded.", "anchors": ["src/preload.c:signal", "src/preload.c:sigaction"]}
{"id": "C74", "title": "The inner type at an address is that of the innermost subobject there", "statement": "The inner type query gives the type of the innermost subobject (array element, struct member, at any depth) of the allocation that contains the address, or on request the type directly around it; NULL if the address is in no allocation.", "quantifier": "for all acyclic sets of types, all allocations and addresses in them", "why_tests_cant": "Types nest to any depth; each level can be an array, struct or union with any layout.", "anchors": ["src/query.c:__liballocs_get_inner_type", "include/liballocs.h:__liballocs_first_subobject_spanning"]}
{"id": "C75", "title": "A type query with an inline cache answers as one without", "statement": "At a place in the program that keeps an inline cache, every type query answers as a query without cache would, whatever was asked there before.", "quantifier": "for all sequences of queries, also while the tree of big allocations changes", "why_tests_cant": "The answer depends on the history of queries at the same place and on reuse of big allocation numbers.", "anchors": ["src/query.c:__liballocs_get_alloc_type_with_fill", "include/liballocs.h:__liballocs_get_alloc_type"]}
{"id": "C76", "title": "An allocation is attributed to the program's call of an allocation function", "statement": "With caller-side wrappers for declared allocation functions, every heap chunk is recorded with the return address of the outermost declared function active when it is made, or with the allocator's direct caller if there is none; the thread is marked as allocating or freeing exactly inside such functions, and afterwards the next call starts afresh.", "quantifier": "for all programs: any nesting and sequence of allocating, freeing and plain calls, with non-local exits", "why_tests_cant": "Nesting depth and sequences are unbounded, and state is kept in thread-local variables between calls.", "anchors": ["tools/stubgen.h:make_caller_wrapper", "tools/stubgen.h:make_free_wrapper", "tools/stubgen.h:make_suballoc_wrapper"]}
{"id": "C77", "title": "The recorded size of a suballocation or reallocation is the one asked for", "statement": "A suballocation is recorded with the size passed to the suballocating function, and a reallocated chunk with the size passed to realloc, in or outside declared functions.", "quantifier": "for all programs, sizes and nestings", "why_tests_cant": "The size passes through a thread-local variable shared by all nested and earlier calls.", "anchors": ["tools/stubgen.h:make_caller_wrapper", "tools/stubgen.h:make_suballoc_wrapper", "tools/stubgen.h:__current_allocsz"]}
{"id": "C78", "title": "Unwinding shows the call stack", "statement": "A walk up the stack from any point shows every active call, innermost first, with its stack pointer, frame pointer and code address, and ends at the outermost; whatever memory holds, it goes strictly upwards and ends, and does not crash.", "quantifier": "for all stacks of any depth and all contents of memory", "why_tests_cant": "Stacks are of any depth, and the chain of frame pointers is data that any code may have changed.", "anchors": ["src/fake-libunwind.c:unw_getcontext", "src/fake-libunwind.c:unw_step", "src/allocators/stackframe.c:get_info"]}
{"id": "C79", "title": "The metadata of a file is found under the names of that file, and only there", "statement": "For each loaded file the library tries two names: one made of the file's build ID and one made of its path, both under the metadata directory; it opens the first that exists and is not older than the file, gives nothing only if neither is usable, and leaves no other descriptor open. Different paths have different names, and so have different build IDs.", "quantifier": "for all metadata directories, paths, build IDs and file systems", "why_tests_cant": "Path lengths go to the limits of the buffers; which candidate is usable depends on the file system.", "anchors": ["src/meta-dso.c:meta_libfile_name_by_path", "src/meta-dso.c:meta_libfile_name_by_build_id_bytes", "src/meta-dso.c:find_and_open_meta_libfile"]}
{"id": "C80", "title": "Metadata stays loaded as long as its file does, and no longer", "statement": "While a file is loaded its metadata object is loaded; unloading the file releases its metadata and nobody else's; unloading never crashes.", "quantifier": "for all sequences of loads and unloads", "why_tests_cant": "Sequences are unbounded, and files may share metadata.", "anchors": ["src/meta-dso-util.c:load_and_init_all_metadata_for_one_object", "src/allocators/static-file.c:__static_file_allocator_notify_unload", "src/allocators/static-file.c:free_file_metadata"]}
{"id": "C81", "title": "A type is found by its linker name", "statement": "Looking up a type by the name of its symbol finds that symbol.", "quantifier": "for all symbol names", "why_tests_cant": "Names are unbounded, and which names are misread depends on hexadecimal codes.", "anchors": ["src/uniqtype-util.c:__liballocs_typestr_to_uniqtype"]}
{"id": "C82", "title": "Loading a file makes its segments and sections known, in the right nesting, and nothing else", "statement": "After a file is loaded, every address of a section belongs to that section, every other address of a segment to the segment, every other address from the beginning of the mapping to the end of the file to the file; sections lie in segments, segments in the file, the file in its mapping, with the allocators in charge recorded. All earlier allocations are as they were. If the file's mapping has a hole, the mapping is first made whole.", "quantifier": "for all files (any number of segments and sections) and all histories before the load", "why_tests_cant": "The tree before the load and the file's layout are arbitrary.", "anchors": ["src/allocators/static-file.c:__static_file_allocator_notify_load", "src/allocators/static-file.c:plug_hole_or_abort", "src/allocators/static-segment.c:__static_segment_allocator_notify_define_segment", "src/allocators/static-section.c:__static_section_allocator_ensure_big"]}
{"id": "C83", "title": "Unloading a file removes exactly what loading it added", "statement": "Unloading by name deletes the big allocations of the files of that name and all in them, insides first, calls each destructor once and touches nothing else; a load followed by an unload restores every query's answer and frees the file's record once.", "quantifier": "for all histories, names and files", "why_tests_cant": "The slots are searched while they are being freed; what lies in them is arbitrary.", "anchors": ["src/allocators/static-file.c:__static_file_allocator_notify_unload", "src/allocators/static-file.c:free_file_metadata"]}
{"id": "C84", "title": "The table of static objects has one entry per object, in order", "statement": "The tool that writes the tables emits, in strictly increasing address order, one record for each static object at its address, with its symbol and type, one for each other place relocation records refer to, and nothing else; the result does not depend on the order or repetition of relocation records; the bitmap has exactly those addresses' bits set, all inside the array.", "quantifier": "for all sets of static objects, symbol tables and relocation sections", "why_tests_cant": "Inputs are arbitrary object files; three passes insert into one map and the first insertion wins.", "anchors": ["tools/metavector.cpp:generate_recs", "tools/metavector.cpp:add_sane_reloc_intervals", "tools/metavector.cpp:output_one_segment_metavec"]}
{"id": "C85", "title": "A static object described by the tools is found by the run-time query", "statement": "For any address in a segment, the query on the generated and loaded table reports the static object containing it with its base, size and type, else the last place referred to by relocations since any object began, else nothing.", "quantifier": "for all object files, segments, load addresses and queried addresses", "why_tests_cant": "It joins two programs, the table writer and the table reader, which agree only through conventions on indices and sizes.", "anchors": ["tools/metavector.cpp:generate_recs", "tools/extrasyms.cpp:main", "include/allocmeta.h:vaddr_from_rec", "src/allocators/static-symbol.c:do_lookup"]}
{"id": "C86", "title": "A relocation record is counted for the place it refers to", "statement": "The place recorded for a relocation record is the one the relocated instruction or datum will refer to.", "quantifier": "for all symbols, relocation types and addends", "why_tests_cant": "The adjustment depends on the relocation type and on what follows the relocated field; addresses are cut to 32 bits.", "anchors": ["tools/metavector.cpp:scan_reloc_target_addr_end_pairs", "tools/metavector.cpp:reloc_distance_to_logical_target"]}
{"id": "C87", "title": "Asking for a function type gives the function type asked for, once", "statement": "Asking for the type of functions from given argument types to a given result type yields a function type of exactly those arguments in that order and that result, of unbounded size, and the same type whenever it is asked for again.", "quantifier": "for all histories of requests for arrays, pointers, unions and functions, all argument lists", "why_tests_cant": "Types are told apart by names concatenated from other names, written piecewise into a fixed buffer; which names collide depends on the whole history.", "anchors": ["src/uniqtype-util.c:__liballocs_get_or_create_subprogram_type"]}
{"id": "C88", "title": "A flexible array type made precise has as many elements as fit", "statement": "Made precise for the memory from an object to the end of a range, a flexible array type becomes the array type of its element type whose length is the greatest number of elements that fit there; types that are not flexible stay as they are.", "quantifier": "for all element types, ranges and objects in them", "why_tests_cant": "The length goes through integers of three widths; only very large ranges show the cuts.", "anchors": ["src/uniqtype-util.c:__liballocs_make_array_precise_with_memory_bounds", "src/uniqtype-util.c:__liballocs_get_or_create_flexible_array_type"]}
{"id": "C89", "title": "Adding a type to a block makes it the union of what it was and an array of the type", "statement": "After `__liballocs_add_type_to_block(block, t)` returns 0 the block's type is a union of exactly its old type (made precise for the block) and the array of as many `t` as fit the block.", "quantifier": "for all histories of type requests, blocks and types", "why_tests_cant": "It chains three memoised requests, any of which may answer with a type made earlier for something else.", "anchors": ["src/query.c:__liballocs_add_type_to_block", "src/uniqtype-util.c:__liballocs_get_or_create_union_type"]}
{"id": "C90", "title": "The innermost type is found everywhere in a dynamically allocated array", "statement": "For every address in an allocation whose type is a flexible array, `__liballocs_get_inner_type` answers the type of the innermost subobject of the element that contains the address.", "quantifier": "for all element types, allocation sizes and addresses in the allocation", "why_tests_cant": "The array's length is computed from the queried address, so what is answered changes with the address.", "anchors": ["src/query.c:__liballocs_get_inner_type", "src/uniqtype-util.c:__liballocs_make_array_precise_with_memory_bounds"]}
{"id": "C91", "title": "The start-up scan records exactly the memory map", "statement": "After the scan of `/proc/<pid>/maps` every address in a line that is not left out has that line's rights, flags, backing file and file position, every other address is as it was, and the recorded sequences are disjoint, in order, and of at most eight entries; left out are lines of more than 4 GiB, kernel pages and the heap from the executable's end on.", "quantifier": "for all memory maps without a gap-free stretch of more than 4 GiB and all known mappings clear of them", "why_tests_cant": "The grouping of lines into sequences depends on names, adjacency and counts along the whole map; a test sees the few maps its machine has.", "anchors": ["src/allocators/mmap.c:add_missing_mappings_from_proc", "src/allocators/mmap.c:add_missing_cb", "src/allocators/mmap.c:extend_current"]}
{"id": "C92", "title": "Scanning the memory map again adds only what is missing", "statement": "A scan when some of the sequences it would make are known already leaves those alone and adds exactly the others; in particular scanning the same map twice is scanning it once.", "quantifier": "for all memory maps and all known mappings, each sequence of the map being known or clear of what is known", "why_tests_cant": "Idempotence over all maps, which the code's comments ask for, is not something one run shows.", "anchors": ["src/allocators/mmap.c:add_mapping_sequence_bigalloc_if_absent"]}
{"id": "C93", "title": "A scan that succeeds leaves the lines' truth, whatever was known", "statement": "If a scan returns, every address of a line not left out is known with that line's rights, flags, file position and file, and known mappings stay well formed and disjoint.", "quantifier": "for all memory maps and all known mappings, however out of date", "why_tests_cant": "The reconciling function has a dozen cases by how the new sequence lies to the old ones; conflicts arise only from races.", "anchors": ["src/allocators/mmap.c:add_mapping_sequence_bigalloc_if_absent", "src/allocators/mmap.c:mapping_sequence_prefix", "src/allocators/mmap.c:mapping_sequence_suffix"]}
{"id": "C94", "title": "The scan does not end the program", "statement": "Scanning a memory map the kernel can give, with known mappings from earlier scans of earlier states of it, returns.", "quantifier": "for all memory maps and histories", "why_tests_cant": "Only unusual lines and changes between scans reach the failing cases.", "anchors": ["src/allocators/mmap.c:add_missing_cb", "src/allocators/mmap.c:add_mapping_sequence_bigalloc_if_absent"]}
{"id": "C95", "title": "The mappings of one loaded file become one bigalloc", "statement": "Consecutive lines of one file, each followed by at most one anonymous line (hole or zero-initialised data), become a single top-level allocation from the first line's beginning to the last line's end.", "quantifier": "for all such maps and known mappings clear of them", "why_tests_cant": "It depends on the number of lines and on how they alternate; common libraries have four or five.", "anchors": ["src/allocators/mmap.c:augment_sequence", "src/allocators/mmap.c:add_missing_cb"]}
{"id": "C96", "title": "The executable's address range has no holes", "statement": "After start-up has looked at the program headers, the segments' pages and the mapped holes are disjoint and together make up the range from the first segment's first page to the executable's end address; that address is the highest end of a segment, and the data segment's start is that segment's start.", "quantifier": "for all header tables with ordered segments and all load addresses", "why_tests_cant": "Executables on one machine have the same few layouts.", "anchors": ["src/allocators/mmap.c:__mmap_allocator_init"]}
{"id": "C97", "title": "The simple queries agree with each other, with the full query and with the object", "statement": "For an address in an object known to some allocator, get_alloc_base, get_alloc_size, get_alloc_type, get_alloc_site and get_leaf_allocator return what the full query returns, namely the object's base, size, type (NULL if unknown), site (NULL if none) and allocator; where there is no object they return NULL or 0.", "quantifier": "for all allocators, objects, tables of allocation sites and both builds", "why_tests_cant": "A returned variable that was never written often happens to hold a plausible value.", "anchors": ["src/query.c:__liballocs_get_alloc_base", "src/query.c:__liballocs_get_alloc_type", "src/query.c:__liballocs_get_alloc_site", "src/query.c:alloc_get_size", "include/liballocs.h:__liballocs_get_alloc_info"]}
{"id": "C98", "title": "Asking does not change later answers", "statement": "After any sequence of queries about an object each query returns what it would have returned without them.", "quantifier": "for all objects, both builds and all sequences of queries", "why_tests_cant": "Tests run in one build and ask each question once.", "anchors": ["include/generic_malloc_index.h:extract_and_output_alloc_site_and_type", "src/query.c:__liballocs_get_alloc_site"]}
{"id": "C99", "title": "A type that was set is the type returned", "statement": "After a successful set_alloc_type of an object, get_alloc_type returns that type whatever was asked in between, and base and size are as before.", "quantifier": "for all objects, types and sequences of queries in between", "why_tests_cant": "It depends on which allocator the object belongs to.", "anchors": ["src/query.c:__liballocs_set_alloc_type", "include/generic_malloc_index.h:__generic_malloc_set_type"]}
{"id": "C100", "title": "The table made for a chunk of small objects has a place for every object in it", "statement": "When a chunk is first subdivided, the table made for it has for every byte of the chunk a bucket whose range contains it, entries of different buckets and layers are different places inside the table, and the bucket can be recovered from the place.", "quantifier": "for all chunk sizes and sizes of the first object", "why_tests_cant": "The geometry is computed by shifts from two sizes; tests use few sizes.", "anchors": ["src/allocators/generic_small.c:make_suballocated_chunk", "src/allocators/generic_small.c:memrect_nbucket_of", "src/allocators/generic_small.c:bucket_ptr"]}
{"id": "C101", "title": "The table of small objects in memory behaves as columns of entries", "statement": "Finding, adding and removing entries in the flat table have the effect of reading, appending to and deleting from the list of entries of one bucket; other buckets are not affected.", "quantifier": "for all table geometries, contents and buckets", "why_tests_cant": "Strides that are wrong for some geometry disturb another bucket only when it is in use.", "anchors": ["src/allocators/generic_small.c:remove_one_entry", "src/allocators/generic_small.c:index_small_alloc_internal"]}
{"id": "C102", "title": "Every chunk of the dynamic linker's malloc lies in an arena of that allocator", "statement": "After start-up has gone over the chunks the linker has allocated, and after each later allocation, the leaf allocator of every such chunk's address is the linker's malloc; no other big allocation changes and other addresses keep their lookups.", "quantifier": "for all states of the page index and all lists of chunk addresses", "why_tests_cant": "Where the linker's memory lies relative to files and other mappings differs from run to run.", "anchors": ["src/allocators/ld-so-malloc.c:ensure_bigalloc_for_userptr", "src/allocators/ld-so-malloc.c:__ld_so_malloc_allocator_init", "src/allocators/ld-so-malloc.c:free_creating_bigalloc"]}
{"id": "C103", "title": "Relocating a displaced instruction keeps what it refers to", "statement": "A field of an instruction moved to another place refers to the same address or offset as before, and a jump written goes to its target, exactly if the distance can be encoded; no other byte changes.", "quantifier": "for all memory contents, places and relocation types", "why_tests_cant": "Tests run with the linker and allocsld mapped close together.", "anchors": ["allocsld/asmutil.h:apply_one_reloc", "allocsld/asmutil.h:read_one_relocated_field", "allocsld/asmutil.h:memcpy_and_relocate"]}
{"id": "C104", "title": "A detoured function behaves as before when called through its trampoline", "statement": "After a function is detoured its entry jumps to the detour, the detour's pointer to the original is the trampoline, and the trampoline has the displaced whole instructions with unchanged referents followed by a jump to the first instruction not displaced; nothing else changes.", "quantifier": "for all decoders, functions and places", "why_tests_cant": "It depends on the instructions of the linker that happens to be installed.", "anchors": ["allocsld/allocinstr.c:prologue_get_first_non_displaced", "allocsld/allocinstr.c:write_monopoline_and_detour", "allocsld/allocinstr.c:instr_cb"]}
{"id": "C105", "title": "The operand stack of a compiled DWARF expression is a stack", "statement": "Reading, assigning and dropping on the chain of stack sections have the effect of the same operations on the sequence of its values, across section boundaries, and fail exactly when the sequence is too short.", "quantifier": "for all stacks, depths and values", "why_tests_cant": "Expressions cross section boundaries in ways the two or three test programs do not.", "anchors": ["tools/dwarf-machine.hpp:stack_section", "tools/dwarf-machine.hpp:morestack", "tools/dwarf-machine.hpp:lessstack"]}
{"id": "C106", "title": "A compiled DWARF expression computes what the DWARF standard says", "statement": "The function generated for an expression returns the value that the stack machine of the DWARF standard leaves on top of the stack, for all arguments, and only if that machine comes to the end.", "quantifier": "for all programs of the supported operations and all arguments", "why_tests_cant": "It is a statement about all programs; the test programs branch only to places where skipping an instruction makes no difference.", "anchors": ["tools/dwarf-machine.hpp:state", "tools/dwarf-machine.hpp:gobble_nbytes", "tools/dwarf-machine.hpp:invoke"]}
{"id": "C107", "title": "Every variable on the stack is in its frame's description", "statement": "At each code address, each variable of complete type that the debugging information puts in memory relative to the frame's base is a member of the description found for the address, at that place; all descriptions of a function have the same base, which is the highest below all its variables that is eight-aligned.", "quantifier": "for all location lists, functions and addresses", "why_tests_cant": "It must hold for every program compiled; tests have a few programs.", "anchors": ["tools/frametypes.cpp:main", "src/allocators/stackframe.c:pc_to_frame_uniqtype"]}
{"id": "C108", "title": "Frame descriptions list only variables that are live", "statement": "Every member of the description found for an address is a variable that the debugging information puts at that place at that address.", "quantifier": "for all location lists, functions and addresses", "why_tests_cant": "Gaps and orders of intervals vary with every compilation.", "anchors": ["tools/frametypes.cpp:main", "src/allocators/stackframe.c:pc_to_frame_uniqtype"]}
{"id": "C109", "title": "A query for an address in a local variable finds its frame", "statement": "For an address in a variable on the stack the frame's extent reported contains the address, and its type has the variable at its place.", "quantifier": "for all functions, frames and addresses", "why_tests_cant": "It depends on the layout of every frame.", "anchors": ["tools/frametypes.cpp:main", "src/allocators/stackframe.c:get_info"]}
{"id": "C110", "title": "The size analysis of a function ends", "statement": "dumpallocs's iteration over a function's assignments reaches an environment that a further pass does not change, for every function in which sizes do not go around in a circle; and made-up structures never have more than a hundred members.", "quantifier": "for all functions, of any number of assignments in any nesting", "why_tests_cant": "Whether passes converge depends on the whole function; a test sees the functions it has.", "anchors": ["tools/lang/c/dumpallocs/dumpallocs.ml:untilFixedPoint", "tools/lang/c/dumpallocs/dumpallocs.ml:accumulateOverStatements"]}
{"id": "C111", "title": "An allocation's bytes are a multiple of the size of the type it is said to have", "statement": "If dumpallocs writes a type's name for an allocation site, then in every run the number of bytes asked for there is a multiple of that type's size; for a made-up structure, a sum of multiples of its members' sizes.", "quantifier": "for all functions, all orders of their statements and all values", "why_tests_cant": "Runs are unbounded and the analysis ignores their order.", "anchors": ["tools/lang/c/dumpallocs/dumpallocs.ml:getSizeExpr", "tools/lang/c/dumpallocs/dumpallocs.ml:vinst"]}
{"id": "C112", "title": "Sizes of one type are recognised however they are computed", "statement": "An expression built by scaling and adding sizes of one type, arrays of it, or variables with its size, is found to be of that type; and without any size in the function nothing is found.", "quantifier": "for all expressions and environments", "why_tests_cant": "Expressions are unbounded.", "anchors": ["tools/lang/c/dumpallocs/dumpallocs.ml:getSizeExpr"]}
{"id": "C113", "title": "Just the calls of functions with signatures are allocations", "statement": "A call by name is recorded as an allocation just if some signature has that name and as many arguments; the first such decides, and the size is that of the argument with the first capital letter, or what the function returns a pointer to.", "quantifier": "for all signatures, functions and arguments", "why_tests_cant": "Signatures come from the user's environment.", "anchors": ["tools/lang/c/dumpallocs/dumpallocs.ml:getUserAllocExpr", "tools/lang/c/dumpallocs/dumpallocs.ml:matchUserAllocArgs", "tools/lang/c/dumpallocs/dumpallocs.ml:parseSignature"]}
{"id": "C114", "title": "Allocating instructions get a group with their attribute", "statement": "Splitting a statement's instructions keeps all of them in order, and puts each allocating one into a group of its own with its attribute.", "quantifier": "for all statements and labels", "why_tests_cant": "Statements have any number of instructions.", "anchors": ["tools/lang/c/dumpallocs/dumpallocs.ml:groupInstrs", "tools/lang/c/dumpallocs/dumpallocs.ml:vstmt"]}
{"id": "C115", "title": "C types have the same name just if they are the same to the run time", "statement": "Two C types get the same uniqtype name from the instrumentation just if they differ only in integer kinds of equal encoding, kind of tag, unknown against zero bounds, or unknown against no arguments.", "quantifier": "for all types, of any depth", "why_tests_cant": "Names are concatenated without delimiters; whether two can clash is a question about all pairs of types.", "anchors": ["tools/lang/c/cilallocs/cilallocs.ml:barenameFromSig", "tools/lang/c/cilallocs/cilallocs.ml:symnameFromSig"]}
{"id": "C116", "title": "Identifiers made from strings can be read back", "statement": "Different strings get different identifiers, made of letters, digits, underscores and dollars only.", "quantifier": "for all strings of bytes", "why_tests_cant": "Escapes could collide for some pair of strings.", "anchors": ["tools/lang/c/cilallocs/cilallocs.ml:identFromString"]}
{"id": "C117", "title": "Comparisons of C types modulo sign, and generic pointers", "statement": "Matching modulo signedness is an equivalence that relates just types equal but for signs under pointers and arrays; singly indirect generic pointers are just those whose target bottoms out at void or char; collapsing arrays keeps the innermost type.", "quantifier": "for all types", "why_tests_cant": "Types have any depth.", "anchors": ["tools/lang/c/cilallocs/cilallocs.ml:tsMatchModuloSignedness", "tools/lang/c/cilallocs/cilallocs.ml:isSinglyIndirectGenericPointerTypesig", "tools/lang/c/cilallocs/cilallocs.ml:collapseArrayDimensionsInTypesig"]}
{"id": "C118", "title": "Walking references visits each reference once", "statement": "Walking references below an allocation calls back, in depth-first order, just for those allocations that the interpreter takes for references, that lie in no other such one, and that are enclosed only by allocations that may contain references; with the interpreter's answer for it. Walking the environment does the same for the environment's elements, with their keys.", "quantifier": "for all trees of allocations, interpreters and callbacks", "why_tests_cant": "Nesting is unbounded, and what is skipped depends on answers from callbacks.", "anchors": ["src/walk.c:__liballocs_walk_refs_cb", "src/walk.c:__liballocs_walk_environ_cb"]}
{"id": "C119", "title": "Start-up keeps the program's types", "statement": "After start-up each standard type variable holds the one object that its symbol is bound to: the program's own if it has one. No binding is changed, no other names are bound, and no entry of a program's type that was filled in is changed.", "quantifier": "for all sets of types and bindings a program may have", "why_tests_cant": "Which types a program defines varies from program to program.", "anchors": ["src/rt-uniqtypes.c:init_rt_uniqtypes_obj"]}
{"id": "C120", "title": "Types made at start-up are right", "statement": "A standard type that the program lacks is made with its right size and kind. Pointers point to the right type. Signed and unsigned types are each other's complements, whichever of them the program has. Nothing is accessed outside of the types.", "quantifier": "for all sets of types and bindings a program may have", "why_tests_cant": "Each of the types may be the program's or not, in any combination.", "anchors": ["src/rt-uniqtypes.c:init_rt_uniqtypes_obj", "src/uniqtype-util.c:__liballocs_get_or_create_address_type"]}
{"id": "C121", "title": "Call sites get the types of their source lines", "statement": "Merging prints each call instruction once and in order. It prints it with what was recorded for the first source line in the instruction's range of lines, in its file, and without if there is none. So an instruction whose range takes in just one record gets that one.", "quantifier": "for all lists of instructions and of source records", "why_tests_cant": "Each of the two lists has any length, and what is kept from one step to the next depends on all before.", "anchors": ["tools/merge-allocs.sh", "tools/gather-srcallocs.sh:pad_numbers"]}
{"id": "C122", "title": "Allocating calls are found in a disassembly", "statement": "From a disassembly with source text, one line is printed for each allocating call that another instruction follows, in order: with the address of the next instruction as return address, and the file and line that apply to the call.", "quantifier": "for all disassemblies", "why_tests_cant": "A listing has any number of sections, functions and source lines, and the state depends on all lines before.", "anchors": ["tools/objdumpmeta.awk"]}
{"id": "C123", "title": "Start-up happens once, whatever comes first", "statement": "Whichever initialiser or query is called first, in whatever order and however often, and whatever is called meanwhile from hooks: each initialiser does all its work once and in order, or nothing. When a call returns to the program, what was called and all that it needs is done. Start-up ends.", "quantifier": "for all sequences of calls, and all calls from hooks during start-up", "why_tests_cant": "Constructors, hooks and queries may interleave in unboundedly many ways.", "anchors": ["src/init.c:__liballocs_global_init", "src/allocators/mmap.c:__mmap_allocator_init", "src/allocators/static-file.c:__static_file_allocator_init", "src/allocators/static-segment.c:__static_segment_allocator_init", "src/allocators/brk.c:__brk_allocator_init"]}
{"id": "C124", "title": "Start-up succeeds from any beginning", "statement": "No assertion fails during start-up, whichever call comes first; and a program may query at any time.", "quantifier": "for all sequences of calls, and all calls from hooks during start-up", "why_tests_cant": "Constructors, hooks and queries may interleave in unboundedly many ways.", "anchors": ["include/liballocs.h:__liballocs_ensure_init", "src/init.c:__liballocs_global_init"]}
{"id": "C125", "title": "File names survive the shell", "statement": "The tool that the link runs to gather the types in use is given just the names of the input files, one argument each and in order, whatever characters are in them.", "quantifier": "for all lists of names and all characters", "why_tests_cant": "File names may hold any characters, quotes and dollar signs too.", "anchors": ["tools/gold-plugin.cpp:shell_quote"]}
{"id": "C126", "title": "The symbols asked for are the ones wrapped", "statement": "A global symbol is wrapped just if it is named as an allocation function. A local one, named with its file, is made global in that file just if it is named so.", "quantifier": "for all lists of names, all files and symbols", "why_tests_cant": "Names are the user's.", "anchors": ["tools/gold-plugin.cpp"]}
{"id": "C127", "title": "The link is restarted once, with all its arguments", "statement": "If an argument that the library needs is missing, the linker is restarted with all the user's arguments, in their order, and with the missing one where it takes effect. Then nothing is missing, so that it is not restarted again.", "quantifier": "for all command lines", "why_tests_cant": "Command lines have any length and options may be written in several ways.", "anchors": ["tools/gold-plugin.cpp:missing_emit_relocs", "tools/gold-plugin.cpp:missing_xwrap_options", "tools/gold-plugin.cpp:missing_liballocs_rpath", "tools/gold-plugin.cpp:missing_allocsld"]}
{"id": "C128", "title": "A type's name is the name it was made from", "statement": "The name shown for a type is the name in its symbol, without prefix and code. A null type and one without a symbol are said to be that. Distinct types have distinct names.", "quantifier": "for all symbol tables, type names and codes", "why_tests_cant": "Names are the program's, of any length, and symbol tables have any size.", "anchors": ["src/uniqtype-util.c:__liballocs_uniqtype_name", "src/uniqtype-util.c:__liballocs_uniqtype_symbol_name"]}
{"id": "C129", "title": "A walk over a metadata object's types visits each type once", "statement": "Iterating over the types of a metadata object calls the caller's function once on each type record in it, in order, and on nothing else, until the function says to stop; its answer is then returned.", "quantifier": "for all objects, symbol tables, string tables and callbacks", "why_tests_cant": "Objects hold any number of symbols with any names, and the callback is the client's.", "anchors": ["src/meta-dso-util.c:__liballocs_iterate_types"]}
{"id": "C130", "title": "Loading metadata leaks nothing and does not feed on itself", "statement": "Whatever fails while an object's metadata is loaded, the descriptor opened and the memory taken are given back once; a handle is recorded just if there is one. Metadata objects (those under the metadata directory or named so) have no metadata loaded for them; other objects have.", "quantifier": "for all object names and all answers of the system", "why_tests_cant": "Each of the calls may fail, in any combination, and names are the user's.", "anchors": ["src/meta-dso-util.c:load_and_init_all_metadata_for_one_object"]}
{"id": "C131", "title": "Numbers in messages are right", "statement": "A number in a message of the library (process number, line of a failed assertion) is its decimal numeral.", "quantifier": "for all numbers", "why_tests_cant": "There are too many numbers to try.", "anchors": ["src/preload.c:write_decint", "src/pageindex.c"]}
{"id": "C132", "title": "Private copies of strings are strings", "statement": "A copy made for the library's own use reads back as the string copied, or as its first n characters if so bounded.", "quantifier": "for all strings and bounds", "why_tests_cant": "Strings have any length.", "anchors": ["src/private-libc.c:__liballocs_private_strdup", "src/private-libc.c:__liballocs_private_strndup"]}
{"id": "C133", "title": "The initial stack is carved up right", "statement": "When the stack's mapping is first seen, addresses up to the argument count belong to the stack, managed in frames, those from there to the mapping's end to the start-up data, and all other lookups answer as before. Seeing such a mapping again keeps each allocation inside its parent and found by lookups over its whole range.", "quantifier": "for all states of the page index, mappings and positions of the argument count", "why_tests_cant": "The layout is chosen by the kernel; a test sees one.", "anchors": ["src/allocators/auxv.c:__auxv_allocator_notify_init_stack_mapping_sequence", "src/allocators/stack.c:__stack_allocator_notify_init_stack_region"]}
{"id": "C134", "title": "Announced small objects are shown", "statement": "Once a client has announced small objects in a heap chunk, every query of an address in the chunk goes to the small-object allocator and gives the start and allocation site of the live object there, or nothing; announcing over an object forgets it; all lookups outside the chunk, and other chunks, are as before. A chunk that was not a big allocation becomes one within its arena.", "quantifier": "for all chunks, sequences of announcements and ends, and addresses", "why_tests_cant": "The chunk's state, its table's geometry and the page index interact over unbounded histories.", "anchors": ["src/allocators/generic_small.c:__index_small_alloc", "src/allocators/generic_small.c:__unindex_small_alloc", "src/allocators/generic_small.c:get_info", "include/generic_malloc_index.h:__generic_malloc_ensure_big"]}
{"id": "C135", "title": "All code there at start-up is trapped", "statement": "When the library starts, every executable mapping on the kernel's list except the one holding its own code has its system calls trapped, once, with its bounds and permissions, and no other memory is rewritten; a second call does nothing.", "quantifier": "for all lists of mappings and all ways the kernel splits the reads", "why_tests_cant": "The list's length and the reads' sizes depend on the process.", "anchors": ["src/systrap.c:__liballocs_systrap_init", "src/systrap.c:maybe_trap_map_cb"]}
{"id": "C136", "title": "Early on, an address up to which the break has moved is found", "statement": "Until system calls are trapped the break may move without notice. An address between where the break was and where it is, at most 128 pages on, is found to be in the break allocation when it is looked up, and the allocation then ends at the break.", "quantifier": "for all breaks, before and after, and all addresses", "why_tests_cant": "The addresses and breaks are the program's; the search's limit is a wrapping difference.", "anchors": ["src/pageindex.c:find_bigalloc_recursive", "src/allocators/brk.c:__brk_allocator_notify_brk"]}
{"id": "C137", "title": "A walk over the stack shows each frame with its own registers", "statement": "The callback is called once for each frame, innermost first, with the frame's instruction pointer, stack pointer and frame pointer, until it returns something other than 0, which is then returned. A failure to unwind is reported as such.", "quantifier": "for all stacks, callbacks and callback states", "why_tests_cant": "Stacks have any depth and callbacks keep any state.", "anchors": ["include/liballocs.h:__liballocs_walk_stack"]}
{"id": "C138", "title": "The report on a wild pointer lists all memory known, once", "statement": "A wild pointer is reported unless it is in the first or last page. The report lists ranges that do not overlap and that contain every allocation known; each is an allocation that is within no other.", "quantifier": "for all histories of the page index and all pointers", "why_tests_cant": "The listing depends on all allocations ever made.", "anchors": ["src/pageindex.c:__liballocs_report_wild_address", "src/pageindex.c:__liballocs_print_l0_to_stream_err"]}
{"id": "C139", "title": "Each segment has the table that was made for it", "statement": "The tool writes a table of static objects for each loadable segment of a file. When a file with such tables is loaded, each of its loadable segments is given its own table.", "quantifier": "for all files, with any number of headers at any addresses, whenever they are loaded", "why_tests_cant": "Files have any headers and addresses, and the order of loading is the program's.", "anchors": ["src/allocators/static-segment.c:__static_segment_setup_metavector", "src/allocators/static-file.c:load_meta_objects_for_early_libs", "src/allocators/static-file.c:__static_file_allocator_notify_load", "tools/metavector.cpp:output_one_segment_metavec"]}
{"id": "C140", "title": "The wrapped compiler builds what the compiler would", "statement": "Building a program or shared library with allocscc compiles each source once, with every option that is for compiling and everything included first, to an object of its own; all objects and archives, in order, each source's object standing for the source, and all libraries, in order, are linked to the output that was asked for. If compiling a source fails then nothing after it is run and the build fails.", "quantifier": "for all command lines of any length, and all outcomes of the commands that are run", "why_tests_cant": "Command lines are lists of any length in which words change the meaning of others.", "anchors": ["tools/compilerwrapper.py:classifyArguments", "tools/compilerwrapper.py:runPhasesBeforeLink", "tools/compilerwrapper.py:flatOptions", "tools/allocscompilerwrapper.py:main"]}
{"id": "C141", "title": "The wrapped compiler stops where it is told to", "statement": "With -c, -S or -E, allocscc runs one command, which stops after the same phase and has the sources, in order, the output asked for, and every option that is for a phase that is run. The result is failure if the command fails.", "quantifier": "for all command lines of any length, and all outcomes of the commands that are run", "why_tests_cant": "Command lines are lists of any length in which words change the meaning of others.", "anchors": ["tools/compilerwrapper.py:classifyArguments", "tools/compilerwrapper.py:runPhasesBeforeLink", "tools/compilerwrapper.py:flatItems", "tools/compilerwrapper.py:optionToStopAfterPhase"]}
{"id": "C142", "title": "Declared allocation functions are wrapped as declared", "statement": "For every function that the environment or the language declares to allocate or free, the link makes one wrapper with the parameters and result declared, which calls the function once with its own arguments, noting the marked one as the size; what a suballocator returns is indexed and what is given back to it is unindexed. Functions to be wrapped that are local to an object are made global, and no others.", "quantifier": "for all lists of declarations, spaced in any way, all arguments, and all symbols of the program", "why_tests_cant": "Declarations are text with any names and any number of arguments.", "anchors": ["tools/allocscompilerwrapper.py:generateAllocatorMods", "tools/allocscompilerwrapper.py:allWrappedSymNames", "tools/allocscompilerwrapper.py:fixupPostAssemblyDotO", "tools/stubgen.h:make_caller_wrapper", "tools/stubgen.h:make_suballoc_wrapper"]}
{"id": "C143", "title": "Static objects without symbols can be queried", "statement": "For each static object that has no symbol of its own the metadata tool makes one. Once the file is loaded, queries find it: its place, size and name are those that were recorded, and walking over these symbols shows each once, in order.", "quantifier": "for all lists of such objects, of any length, with any names", "why_tests_cant": "Names are text of any length, and the tables grow with the program.", "anchors": ["tools/extrasyms.cpp:main", "src/allocators/static-file.c:load_metadata", "src/allocators/static-symbol.c:get_name", "allocsld/allocinstr.c:walk_all_ld_so_symbols"]}
{"id": "C144", "title": "The system's dynamic linker takes over unnoticed", "statement": "When a program is started through allocsld, the system's dynamic linker finds its own path where the program names its linker, or in argv[0] if allocsld was started as a program; its function that debuggers stop at leads to allocsld's. No other byte of the program or the linker is changed.", "quantifier": "for all program headers, load addresses, paths and memory contents", "why_tests_cant": "Load addresses are random and linkers differ.", "anchors": ["allocsld/chain.c:fix_link_map_paths", "allocsld/chain.c:chain_dl_debug_state_function", "tools/interp-pad.S"]}
{"id": "C145", "title": "Instrumented functions do what they did, and their stack allocations are indexed until they return", "statement": "A function whose calls to alloca have been instrumented does just what the original does, for some alloca that C allows. Every chunk that it allocates on the stack is indexed with its size and the place of the call, and when it returns these chunks are removed from the index, and no others.", "quantifier": "for all functions, with any statements, loops and branches, all arguments and memory contents, and any other functions called", "why_tests_cant": "Functions allocate in loops any number of times, and compilers place chunks as they like.", "anchors": ["tools/lang/c/monalloca/monalloca.ml:vinst", "tools/lang/c/monalloca/monalloca.ml:vfunc", "include/liballocs_cil_inlines.h:__liballocs_notify_and_adjust_alloca", "src/allocators/alloca.c:__liballocs_unindex_stack_objects_counted_by"]}
{"id": "C146", "title": "Code built to trap pointer writes does what it did, and tells of each pointer that it stores", "statement": "A function that has been changed by the pass trap-ptr-writes does just what the original does, for an order of evaluation that C allows. Just before an object that is not part of a local variable is assigned to, there are calls of __notify_ptr_write or __notify_copy for all of the pointers within it, also those in nested structures and arrays, with the addresses and values of the pointers to be written, and no other calls.", "quantifier": "for all types, all assignments and calls, all statements with loops and branches, and any memory contents", "why_tests_cant": "Types nest to any depth, and the property is about all stores of all programs.", "anchors": ["tools/lang/c/trapptrwrites/trapptrwrites.ml:addTrapCallsForLval", "tools/lang/c/trapptrwrites/trapptrwrites.ml:typNeedTrapCalls", "tools/lang/c/trapptrwrites/trapptrwrites.ml:vinst"]}
{"id": "C147", "title": "A simplified C expression means what the expression meant", "statement": "The simplification of pointer expressions gives an expression with the same value in every state, and the same type up to attributes such as const. Chains such as *&*&v become v, and members of what a member's address points to are seen as members of the variable.", "quantifier": "for all expressions, nested to any depth, and all states of memory", "why_tests_cant": "Expressions nest without bound.", "anchors": ["tools/lang/c/cilallocs/cilallocs.ml:simplifyPtrExprs", "tools/lang/c/cilallocs/cilallocs.ml:getConcreteType"]}
{"id": "C148", "title": "Whatever happened before, a query of a live heap object reports its start and its type", "statement": "At any time, a query of any address inside a live heap object reports the object's start, the type that it was last given, or else that of the call that allocated it or last resized it, and that call's site. It does not matter what else was allocated, resized, freed and asked about before and since, what the program wrote to the bytes that are its own, and what the malloc wrote to memory that is not in use.", "quantifier": "for all histories of allocations, frees, successful and failed calls of realloc, writes, queries and changes of type, of any length, and all initial memory contents", "why_tests_cant": "The metadata lie in memory that the program and the malloc recycle all the time; histories are unbounded.", "anchors": ["include/generic_malloc_index.h:__generic_malloc_index_insert", "include/generic_malloc_index.h:__generic_malloc_index_delete", "include/generic_malloc_index.h:__generic_malloc_index_reinsert_after_resize", "include/generic_malloc_index.h:__generic_malloc_get_info", "include/generic_malloc_index.h:__generic_malloc_set_type", "tools/stubgen.h:ALLOC_EVENT_INDEXING_DEFS4"]}
{"id": "C149", "title": "A heap object is of the type that its source line was recorded with", "statement": "The compiler records the type for each source line with an allocating call. In the built and loaded program, a query of any address inside a heap object reports the type that was recorded for the lines of the call that made it, if the disassembly shows the call as coming from those lines and no other type was given to the object since.", "quantifier": "for all disassemblies and lists of records of any length, all files loaded in any places, and all histories of the heap", "why_tests_cant": "Between the record and the query lie five programs that sort, merge, print and read text, and a run of any length.", "anchors": ["tools/Makefile.meta", "tools/objdumpallocs", "tools/objdumpmeta.awk", "tools/merge-allocs.sh", "tools/allocsites.cpp:main", "src/allocsites.c:__liballocs_find_allocsite_entry_at", "include/generic_malloc_index.h:__generic_malloc_get_info"]}
{"id": "C150", "title": "A static object has the type, place and size that the tool found for it", "statement": "In a loaded file, a query of any address inside a static object reports the object's type as the debugging information has it, the object's start and size, and the allocation site of the load. It does not matter what other files were loaded and unloaded before and since, nor what else was mapped or allocated. An address between static objects is not said to be in one.", "quantifier": "for all binaries with any numbers of segments, sections and static objects, loaded at any addresses in histories of any length, and all addresses", "why_tests_cant": "The description goes through a tool, a table of bit fields, a page index and a search; the histories in between are unbounded.", "anchors": ["tools/metavector.cpp:main", "src/allocators/static-file.c:__static_file_allocator_notify_load", "src/allocators/static-segment.c:__static_segment_allocator_notify_define_segment", "src/allocators/static-symbol.c:get_info", "src/pageindex.c:__liballocs_find_deepest_bigalloc"]}
{"id": "C151", "title": "The compact frame description says what is on the stack at each address", "statement": "At every program counter, the layout in force in the compact description (the one at the last location set at or before the address) lists exactly the variables, pieces and saved registers that the debugging information places at fixed offsets from the frame's base there, each once, in order of offset, and its numbers lead to rows with their names, types and pieces. Rows are not repeated.", "quantifier": "for all numbers of elements with any intervals and all addresses", "why_tests_cant": "Intervals split and join each other in unboundedly many ways.", "anchors": ["tools/frametypes2.cpp:write_compact_output", "tools/frametypes2.cpp:write_triples", "tools/frametypes2.cpp:add_local_elements", "tools/frametypes2.cpp:add_cfi_elements"]}
{"id": "C152", "title": "The last option that mentions a switch decides", "statement": "Each switch of the compact frame tool is as the last option says that mentions it, and as by default if none does; asking for traditional output turns saved registers, computed values, statics and incomplete types off. Just one argument is not an option, and it names the input.", "quantifier": "for all argument lists", "why_tests_cant": "Argument lists are unbounded and options override each other.", "anchors": ["tools/frametypes2.cpp:main"]}
{"id": "C153", "title": "What the compiler plug-in writes for calls is gathered for the linked file", "statement": "For a linked file, what is gathered are the records of just the calls that allocate in the sources it is made from, each once, in the order of file and line, whether they were written beside the sources, into the file's section, or both. Each has the call's path, line, function, type name and flag, and can be read back.", "quantifier": "for all sources with any numbers of functions and calls, and any division between files and section", "why_tests_cant": "The records go through an assembler section, sed, sort and uniq; sources are unbounded.", "anchors": ["tools/gather-srcallocs.sh", "tools/lang/c/bin/c-gather-srcallocs", "tools/lang/c/dumpallocs/dumpallocs.ml:printAllocFn", "tools/lang/c/dumpallocs/dumpallocs.ml:addAsm"]}
{"id": "C154", "title": "Records are looked for beside the source", "statement": "The records of a unit are looked for in the file that is named as its source is, but for the extension, which is .i.allocs.", "quantifier": "for all source paths", "why_tests_cant": "Paths are unbounded.", "anchors": ["tools/lang/c/bin/c-gather-srcallocs"]}
{"id": "C155", "title": "A heap object has the type whose size the C source asked for", "statement": "Compile C sources with the plug-in, link them, run the tools and load the result. If the source asks malloc, calloc, realloc, posix_memalign or another allocation function for a size that is written as a number of things of one type, then a query of any address inside the object that the call made reports that type.", "quantifier": "for all programs with any numbers of files, functions, statements and calls, all placements of the loaded files and all histories of the heap", "why_tests_cant": "It takes the analysis of sizes, six text tools, the loader and the heap index together, over unbounded programs and runs.", "anchors": ["tools/lang/c/dumpallocs/dumpallocs.ml:dumpAllocsVisitor", "tools/lang/c/cilallocs/cilallocs.ml:symnameFromSig", "tools/gather-srcallocs.sh", "tools/merge-allocs.sh", "tools/allocsites.cpp:main", "src/allocsites.c:__liballocs_find_allocsite_entry_at", "include/generic_malloc_index.h:__generic_malloc_get_info"]}
{"id": "C156", "title": "The linker plugin wraps the functions that its options name", "statement": "Given six options that list functions in the plugin's form (name, letters of the arguments, letter of the result), the plugin has just those symbols wrapped that are named in one of the first five and that an input file defines for other files, and compiles a C file with just the named functions' wrappers: allocation, free, size, suballocation and suballocation free, in that order, each with all its letters in order.", "quantifier": "for all numbers of functions, arguments, input files and symbols", "why_tests_cant": "Options are free text that goes through two regular expressions, a tokeniser and recursive C macros.", "anchors": ["tools/gold-plugin.cpp:allocs_plugin", "tools/gold-plugin.cpp:claim_file", "tools/gold-plugin.cpp:wordify", "tools/allocstubs.c"]}
{"id": "C157", "title": "Functions declared in the environment get their wrappers", "statement": "If functions are declared in LIBALLOCS_ALLOC_FNS and the other variables in the documented form, and a program is linked with the flags that allocs-ldflags prints, then just the declared functions that an input file defines are wrapped, each by a wrapper of the declared kind and signature.", "quantifier": "for all lists of declarations with any white space, all input files", "why_tests_cant": "The declarations are rewritten by tr, sed and the shell's read, quoted for the shell, split at commas by the compiler driver and parsed again by the plugin.", "anchors": ["tools/allocs-wrapper", "tools/gold-plugin.cpp:allocs_plugin"]}
{"id": "C158", "title": "A reference to a type by its plain name is bound to the only type of that name", "statement": "When an object file that refers to types by plain names (__uniqtype__foo) is linked with the types generated for it (__uniqtype_0123abcd_foo), each reference for whose name exactly one code is defined becomes a reference to that definition and is bound by the link; references with several candidates or none, and all other symbols, keep their names.", "quantifier": "for all objects and all sets of generated symbols", "why_tests_cant": "The candidates are sorted, counted and rewritten as text by five tools, and names may contain one another.", "anchors": ["tools/used-types-funcs.sh:symbol_redefinitions", "tools/used-types-funcs.sh:objcopy_and_redefine_codeless_names", "tools/used-types-funcs.sh:link_defining_aliases"]}
{"id": "C159", "title": "A reference to a C++ class by template is bound to the class's type", "statement": "An undefined reference to uniqtype<C>::obj in a C++ object ends, after link-used-types, as a reference to the one type generated for C, and is bound.", "quantifier": "for all objects, classes and generated symbols", "why_tests_cant": "Names are taken apart by loops over characters, with lengths in decimal.", "anchors": ["tools/lang/c++/bin/link-used-types:chomp_idents", "tools/lang/c++/bin/link-used-types:translate_symnames", "tools/lang/c++/bin/link-used-types:objcopy_and_redefine_cxx_names"]}
{"id": "C160", "title": "Local variables have their declared types", "statement": "A query for an address inside a local variable or stack-passed parameter, made from any depth of calls below the variable's function and through code of files without metadata, finds the function's activation, and the innermost type is what it would be for an object of the variable's type at the variable's place: for a variable without contained objects, its declared type.", "quantifier": "for all stacks, loaded files and debugging information", "why_tests_cant": "The tables are made at build time from location lists, and searched for return addresses met in unwinding; whether each table entry fits each frame is a matter of every call chain.", "anchors": ["src/allocators/stackframe.c:get_info", "src/allocators/stackframe.c:pc_to_frame_uniqtype", "src/allocators/stackframe.c:init_frames_info", "tools/frametypes.cpp:main", "src/query.c:__liballocs_get_inner_type"]}
{"id": "C161", "title": "Every call of a declared allocation function is found in the binary", "statement": "The scan of a disassembled binary prints a line, with the call's address and return address, for every instruction that calls or jumps to a function declared in LIBALLOCS_ALLOC_FNS, LIBALLOCS_SUBALLOC_FNS or LIBALLOCS_ALLOCSZ_FNS, to its wrapper, to a standard allocation function, or through a pointer; and for no other instruction but unbound calls.", "quantifier": "for all declarations and all listings", "why_tests_cant": "The names go through three layers of quoting (sed, the shell, awk's -v) into one regular expression; tests see the usual names only.", "anchors": ["tools/objdumpallocs:escape_eregexp", "tools/objdumpallocs:make_match_any_line_floating_eregexp", "tools/objdumpallocs:meta_instr_regexp", "tools/objdumpmeta.awk"]}
{"id": "C162", "title": "The metadata made for a linked file is found for it, wherever the file goes", "statement": "After a link with the plugin, the search at run time for the linked file's metadata finds what was made from that file; a file with a build ID may afterwards be copied or moved anywhere, and other files linked in its place, and its own metadata is still found; metadata under a build ID is never that of a file with another ID.", "quantifier": "for all names, build IDs and histories of linking, copying, moving and removing files", "why_tests_cant": "The name is made by a plugin in C++, a makefile, a shell script over od, and C code at run time, which must agree; histories of the file system are unbounded.", "anchors": ["tools/gold-plugin.cpp:~allocs_plugin", "tools/Makefile.meta:link_under_build_id", "tools/debug-funcs.sh:read_build_id", "src/meta-dso.c:find_and_open_meta_libfile"]}
{"id": "C163", "title": "The run-time checks of the table of big allocations never fail, and find what they look for", "statement": "In a build with assertions, every operation on big allocations used as it should be completes with the same result as without the checks it makes on the way: no check of a big allocation or of the top-level list fails, at any point inside an operation. A check that passes means that every big allocation it looks at is not empty, lies in its parent, and is not indexed before or after its range.", "quantifier": "for all histories of operations and all tables", "why_tests_cant": "A check walks the part of the table that an operation is in the middle of changing; it must hold in each intermediate state of every history.", "anchors": ["src/pageindex.c:sanity_check_bigalloc", "src/pageindex.c:sanity_check_bigallocs_toplevel", "src/pageindex.c:add_child", "src/pageindex.c:unlink_child", "src/pageindex.c:bigalloc_del"]}
{"id": "C164", "title": "The statistics printed at exit say what the queries did", "statement": "After any history of queries each counter in the summary printed at exit is the number of queries with the outcome its line names; the numbers read back as the counters; the list of unrecognised allocation sites holds, once each, exactly the sites of the objects whose type was asked for in vain; a summary is printed if there is anything to report.", "quantifier": "for all histories of queries and all contents of memory", "why_tests_cant": "Counting is spread over seven allocators, and an optimised build rewrites the data it counts by; what matters is every order of queries.", "anchors": ["src/counters.c:print_exit_summary", "include/generic_malloc_index.h:extract_and_output_alloc_site_and_type", "src/allocators/generic_small.c:get_info", "src/lifetime_policies.c:try_get_alloc_type", "src/addrlist.c"]}
{"id": "C165", "title": "Diagnostics reach the place chosen for them, whole and in order", "statement": "Every diagnostic message is printed to stderr or, if LIBALLOCS_ERR names a file, to that file; the messages are there whole and in order, and printing one does not stop the program. This holds for the summary and the memory map printed at exit.", "quantifier": "for all sequences of messages, times of buffering and orders of flushing", "why_tests_cant": "Each message opens the file anew; the result depends on buffering, on the order in which streams are flushed, and on how many descriptors are left.", "anchors": ["src/err.c:get_stream_err", "src/liballocs_private.h:debug_printf", "src/counters.c:print_exit_summary"]}
{"id": "C166", "title": "Objects made by alloca are found while their function runs, and not after", "statement": "At any moment of a run of nested functions that call alloca, a query for an address in an object of a running function answers with that object's start, size and allocation site; objects of running functions do not overlap; an object is all zeros when it is made, and making it changes nothing outside its block; after a function returns, by any number of its callees' returns before it, none of its objects is found.", "quantifier": "for all histories of calls, allocations, stores, queries and returns", "why_tests_cant": "An object is in a bitmap over part of a stack frame, made at the function's first alloca and extended downwards at later ones; what matters is every nesting of frames and every order of sizes.", "anchors": ["src/allocators/alloca.c:__alloca_allocator_notify", "src/allocators/alloca.c:__liballocs_unindex_stack_objects_counted_by", "src/allocators/alloca.c:alloca_arena_for_userptr", "src/allocators/stackframe.c:__stackframe_allocator_find_or_create_bigalloc", "include/liballocs_cil_inlines.h:__liballocs_alloca_caller_frame_cleanup"]}
{"id": "C167", "title": "Objects of the dynamic linker's own malloc are known by their start, size and call", "statement": "After any history of the linker's calls to its own malloc, calloc, realloc and free, before and after the library starts, a query for an address in an object still in use answers with the object's start, the size asked for and the call that made it; after the object is freed its addresses are of no object; the memory the linker gets is what it would get without us.", "quantifier": "for all histories of the linker's allocations and stores, and all mappings", "why_tests_cant": "The index, a word behind each object, the table of big allocations and a hook installed half way must agree; what is in memory before a word is stored depends on the whole history.", "anchors": ["allocsld/allocinstr.c:linear_malloc_index_insert", "allocsld/allocinstr.c:linear_malloc_index_reinsert_after_resize", "allocsld/allocinstr.c:ld_so_malloc_usable_size", "tools/stubgen.h:ALLOC_EVENT_INDEXING_DEFS4", "src/allocators/ld-so-malloc.c:linear_malloc_get_info"]}
{"id": "C168", "title": "The traditional frame types name what is on the stack at every address", "statement": "When frametypes is asked for traditional output, then for every code address at which local variables are live the table leads to a record for an interval around the address and for its subprogram, and the record's type has as members just the variables on the stack there, each once, at its offset from the record's base; the base makes every offset non-negative and is the same for the whole subprogram; each member lies inside of the type; names stand for one type each, whether defined or an alias; at other addresses no record is found; and the tool does not stop.", "quantifier": "for all sets of live ranges, subprograms and offsets", "why_tests_cant": "Intervals are cut, merged and joined again in two interval maps keyed differently, and aliases are found by comparing with all earlier intervals.", "anchors": ["tools/frametypes2.cpp:write_traditional_output", "tools/frametypes2.cpp:main"]}
{"id": "C169", "title": "All types that allocation sites need are declared before they are mentioned", "statement": "For every file, alloctypes declares, once each, the names of just those types that its allocation sites' types are made of, however they refer to each other, and every definition that it writes comes after declarations of all that it mentions; static members are not part of a type. The tool ends, and does not stop on the way.", "quantifier": "for all graphs of types and all lists of sites", "why_tests_cant": "Types refer to each other in cycles, through typedefs and qualifiers, and there are many entries for the same type; whether a walk over names misses something depends on the whole graph.", "anchors": ["tools/alloctypes.cpp:get_names_depended_on", "tools/alloctypes.cpp:main"]}
{"id": "C170", "title": "The tool that lists where frames keep pointers says what the debugging information does", "statement": "For every address of code, the structures that dumpptrs writes for the address say of each pointer variable that the debugging information gives a place there (a register, or an offset from the canonical frame address) that place and no other; and of each register that functions preserve, the place where the frame information says it is saved. At most one structure is for an address, and nothing but structures is written.", "quantifier": "for all files' subprograms, location lists and frame information, and all addresses", "why_tests_cant": "Location lists, ranges and frame rows cut code into intervals that are split, joined and merged as sets; whether a fact survives depends on all others at that address.", "anchors": ["tools/dumpptrs.cpp:main", "tools/dumpptrs.cpp:is_callee_save_register", "tools/dumpptrs.cpp:retained_element"]}
{"id": "C171", "title": "The interface-types tool answers for just the elements it is asked for", "statement": "When ifacetypes is given a list of names and hexadecimal addresses, one on a line, it defines the types that the functions and static variables of these names, or at these addresses, are made of, and no others; for each name of such an element it writes one pointer to the element's type, which is among those defined. If nothing is asked for, the types of all elements are defined.", "quantifier": "for all lists of names and addresses and all files' elements and types", "why_tests_cant": "Whether a line is a name or an address is decided by the rules for reading numbers, and elements are remembered by name over the whole file; which requests and names come together is unbounded.", "anchors": ["tools/ifacetypes.cpp:main"]}
{"id": "C172", "title": "All symbolic links on the way to a file are listed", "statement": "For every file system and every path, dump-symlinks prints one line for each symbolic link that is followed when the path is resolved, in the order in which they are followed, and for no other; it ends if the path leads anywhere, and without complaint.", "quantifier": "for all file systems and paths", "why_tests_cant": "The script calls itself for targets of links, whose paths may have links again, to any depth; which links are met depends on the whole file system.", "anchors": ["tools/dump-symlinks.sh:resolve_one_and_maybe_print", "tools/dump-symlinks.sh:resolve_all", "tools/Makefile.meta:ensure_mirror_dir_for_target"]}
{"id": "C173", "title": "The compiler reads back the bitmap that metavector has made", "statement": "For every loadable segment, what metavector writes between the braces of the segment's bitmap is read by a C compiler as the words of the bitmap, each once and in order: one word for each 64 bytes that the segment has a part of, and in it, from the most significant bit down, a bit for each address, set just if one of the file's records starts there. The comment beside the words shows the same bits, each in the line of its 256 bytes and under its offset in the heading.", "quantifier": "for all records and segments", "why_tests_cant": "Words are put out in groups between comments, with commas depending on their place; addresses, sizes and contents of the bitmap are unbounded.", "anchors": ["tools/metavector.cpp:output_one_segment_metavec"]}
{"id": "C174", "title": "The listing of memory accesses has the program's loads and stores", "statement": "For every C program, the file that the dumpmemacc pass writes has a line for each load that evaluating the program's expressions makes and for each store that its instructions make, in the order of the program, each with the location of the instruction, the type that is accessed and the type of the whole object that is named; lines marked as real are about nothing else. Lines not marked so are about constants, results of operators, conditional expressions and casts that change the representation.", "quantifier": "for all programs", "why_tests_cant": "Expressions are nested to any depth and lines are made from inside out while the place in the source is kept aside; unit tests see single programs.", "anchors": ["tools/lang/c/dumpmemacc/dumpmemacc.ml:dumpMemAccVisitor"]}
{"id": "C175", "title": "What allocscc links is what the compiler would link", "statement": "For every list of objects, archives and libraries, the program or library that allocscc links has the parts that the compiler alone would have put in it from the same list, in the same order; the same symbols are defined by it, by shared libraries and by nothing; and linking fails where the compiler's would. All of every object that is named is in the result, and nothing that is not named.", "quantifier": "for all lists of objects, archives and shared libraries, of any contents and in any order", "why_tests_cant": "What is taken of an archive depends on everything before it, and the wrapper puts the list into another order.", "anchors": ["tools/allocscompilerwrapper.py:main"]}
{"id": "C176", "title": "A build by allocscc that succeeds is whole", "statement": "If allocscc ends with status 0 on linking a program or a shared library then both links succeeded, the output is there, and the metadata of it and the types it uses could be made; a program that is linked dynamically names the dynamic linker that the padding of its name was made for, and has the padding; the library is linked in the form asked for; and relocation records are kept only if the user asked for it. If a link fails then nothing is run after it.", "quantifier": "for all kinds of output, values of the environment, and outcomes of the commands that are run", "why_tests_cant": "Outcomes of external commands and settings combine in more ways than are tried.", "anchors": ["tools/allocscompilerwrapper.py:main", "tools/allocscompilerwrapper.py:getLiballocsLinkArgs", "tools/allocscompilerwrapper.py:doPostLinkMetadataBuild"]}
{"id": "C177", "title": "All of the dynamic linker's allocation functions are detoured, each to its own detour", "statement": "After allocsld has instrumented the real dynamic linker, each of __minimal_malloc, __minimal_calloc, __minimal_realloc and __minimal_free that the dynamic linker defines begins with a jump to its own detour; the detour's variable has the address of a trampoline of its own, which has the function's first instructions, referring to what they did, and then goes on in the function; functions and trampolines can be executed and not written; trampolines do not overlap and lie in the page that was mapped for them; nothing else in memory has changed, and no page that was not mapped for it or has such a function has another protection.", "quantifier": "for all tables of symbols and all contents and places of the functions, the dynamic linker and allocsld", "why_tests_cant": "Functions may be in two tables, in any order, share pages or lie across two; the effects of each on the others depend on where all of them are.", "anchors": ["allocsld/allocinstr.c:instrument_ld_so_allocators", "allocsld/allocinstr.c:walk_all_ld_so_symbols", "allocsld/allocinstr.c:instr_cb"]}
{"id": "C178", "title": "The plugin adds to a link the types that its inputs use, and all that goes with them", "statement": "For every link, the linker plugin seeks used types in just the relocatable files that are linked, each once; and if the commands that it runs succeed it adds to the link, in this order: the dummy definitions unless the output is relocatable, the padding of the dynamic linker's name for programs, the types used and the stubs unless they are empty, and the dynamic linker. If a command fails then no other is run and nothing more is added. No link fails because of what is added.", "quantifier": "for all inputs, kinds of output, settings and outcomes of commands", "why_tests_cant": "Inputs, kinds of output and failures combine in more ways than are tried, and the plugin runs inside a linker.", "anchors": ["tools/gold-plugin.cpp:all_symbols_read", "tools/gold-plugin.cpp:compile_c_source_and_add_as_input", "tools/usedtypes.cpp:main"]}
{"id": "C179", "title": "The size of a chunk is read from where that kind of chunk has it", "statement": "malloc_or_alloca_usable_size, given a chunk from alloca on any stack, answers with the word stored below the chunk; given any other chunk, or a null pointer, it answers as malloc_usable_size does.", "quantifier": "for all addresses, stack limits, breaks, stack pointers and states of the page index", "why_tests_cant": "Stacks without a limit, stacks of other threads and limits that reach the heap are settings of the system, and the answer depends on all of them together with the index.", "anchors": ["src/preload.c:malloc_or_alloca_usable_size", "src/allocators/alloca.c:__alloca_usable_size", "src/pageindex.c:__liballocs_get_allocator_upper_bound"]}
{"id": "C180", "title": "A reference is bound to the real definition just when the library is loaded ahead of all others", "statement": "When the dynamic linker resolves a reference to an indirect function of the library, it is bound to the real definition if the library is the first object loaded after the executable and the kernel's own, and to the definition that does nothing otherwise. All references in a process are bound alike, whatever is loaded or unloaded between them.", "quantifier": "for all link maps, and all sequences of link maps at the times of binding", "why_tests_cant": "What is loaded, in which order and under which names differs from one process to the next, and references are bound at any time.", "anchors": ["src/ifunc.c:check_head_preload_position", "src/ifunc.c:__liballocs_test_ifunc"]}
{"id": "C181", "title": "A callback can tell from its link what it has been called for", "statement": "When allocations are walked, the link handed to the callback gives, through the LINK_ macros, the type of the container, the type of the object called for, which is the one handed to the callback, and for a member of a structure its name; whether the container is a big allocation or an object with a type, and which, can be told from one word, whatever flags it carries.", "quantifier": "for all types, objects, places of the tables and flags", "why_tests_cant": "Types and containers are of any shape, and an off-by-one between the walk and the macros would show as the neighbouring member's name or type.", "anchors": ["include/allocmeta.h:BOU_IS_BIGALLOC", "include/allocmeta.h:LINK_UNIQTYPE_FIELD_NAME", "include/allocmeta.h:LINK_LOWER_UNIQTYPE", "src/walk.c:__liballocs_walk_allocations"]}
{"id": "C182", "title": "The section allocator says what section an allocation is, and librunt finds its part of a file's record", "statement": "Asked about a section, the section allocator's get_info gives the section's start, its size, the type of bytes and the site that loaded the file. Asked about an address in a file that is in no section's big allocation, it gives the loaded section in the headers that has the address, or the error if there is none. For an address librunt gets its own part of the record of the file that has the address, or NULL if no file has it; a new record is all zeros, with room for each segment.", "quantifier": "for all files, layouts of librunt's part of the record, states of the page index and addresses", "why_tests_cant": "The layout is that of another library's structure, which changes with its version, and what is read from the wrong place of a record is often a plausible pointer or zero.", "anchors": ["src/allocators/static-section.c:get_info", "src/allocators/static-file.c:__static_file_allocator_metadata_by_addr", "src/allocators/static-file.c:__alloc_file_metadata", "include/allocmeta.h:allocs_file_metadata"]}
{"id": "C183", "title": "A message says which place in the program it is about", "statement": "The text that messages give for an address names the file, the symbol and the offset in it, so that two addresses with the same text are in files of one name, in symbols of one name and at one offset. It always fits its buffer. For a return address the place named is the call, in the calling function.", "quantifier": "for all addresses, and all files and symbols that they may be in", "why_tests_cant": "File and symbol names are of any length and have any characters, and calls are of several lengths; a truncated or ambiguous text looks like any other.", "anchors": ["src/util.c:format_symbolic_address", "src/preload.c:abort", "src/liballocs_private.h:CALL_INSTR_LENGTH"]}
{"id": "C184", "title": "An allocator's own metadata are given for its allocations, and strings are named by their text", "statement": "Asked for an allocator's metadata at an address, the library gives those of the allocator's allocation that has the address, and NULL if it has none there. Asked for the name of a string in a packed sequence of strings, such as a string table, it gives the string, whatever the strings before and after are, and no name for the empty string.", "quantifier": "for all reachable states of the page index, allocators, addresses and sequences of strings of any length", "why_tests_cant": "Whether one allocation is in another depends on the history of the process, and where a string starts on all those before it; a test has few of either.", "anchors": ["src/query.c:__liballocs_get_specific_by_allocator", "src/allocators/packed-seq.c:get_name", "src/allocators/packed-seq.c:name_for_string8_nulterm"]}
{"id": "C185", "title": "The list of a binary's source files has every one, by a path that leads to it", "statement": "The tool cufiles lists each source file of each compilation unit of a binary by its number in the unit, with a path that is, whatever directory one is in, the file that its name in the debugging information was for the compiler. It succeeds exactly when it has a file to read.", "quantifier": "for all compilation units, names, directories and trees of files, with parent entries and links", "why_tests_cant": "Names and directories are whatever the build system passed to the compiler; a wrong path is seen only where the tree of files has something else at it.", "anchors": ["tools/cufiles.cpp:main"]}
{"id": "C186", "title": "Every symbol in a list gets a function that does nothing, or one that chooses", "statement": "The tools noopgen and ifuncgen, which are one program by two names, generate a definition for each symbol in a list that has a definition in the debugging information, exactly one for each, and for nothing else. One that chooses has the symbol's name and visibility, and returns the real function at the head of the preloads and the one that does nothing elsewhere, both declared before.", "quantifier": "for all lists of symbols and all debugging information, of any length", "why_tests_cant": "Lists and debugging information are those of a whole library, with declarations, repeated entries and aliases among them; what is left out is missed only by a program that calls it.", "anchors": ["tools/noopgen.cpp:main", "tools/noopgen.cpp:read_sym_line", "tools/noopgen.cpp:defn_of_die", "tools/noopgen.cpp:body_of_subprogram_die"]}
{"id": "C187", "title": "The wrapper of a typed allocation function has the size of what it allocates", "statement": "For an allocation function without a size argument, the wrapper that is generated at link time takes as the size of its allocations the size of the type that the function returns a pointer to, by any typedefs and qualifiers, as an object that is linked has it. If no object says, the link is given up.", "quantifier": "for all linker arguments, objects, compilation units and types, of any depth of typedefs", "why_tests_cant": "The size is found by the order of objects, of units in them and of types by reference; a test has one function in one object.", "anchors": ["tools/find-allocated-type-size.cpp:main", "tools/allocscompilerwrapper.py:generateAllocatorMods"]}
