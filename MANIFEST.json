{
 "claims": [
  {
   "property": "C01",
   "status": "proved",
   "theorems": [
    "Liballocs.Fill.fill_exact",
    "Liballocs.Fill.fill_completes",
    "Liballocs.Fill.fill_checked",
    "Liballocs.Fill.fill_wildcard"
   ],
   "note": "memset_bigalloc: exact pointwise effect, and it completes whenever its own sanity checks hold"
  },
  {
   "property": "C02",
   "status": "partial",
   "theorems": [
    "Liballocs.PageIndex.lookup_deepest_partial",
    "Liballocs.PageIndex.history_completes",
    "Liballocs.PageIndex.history_starts",
    "Liballocs.PageIndex.nested_reach",
    "Liballocs.PageIndex.overlap_accepted_fails",
    "Liballocs.PageIndex.truncEnd_child_fails",
    "Liballocs.PageIndex.split_child_fails"
   ],
   "note": "histories whose callers keep the obligations of `Allowed` (ranges inside the parent, apart from siblings, not cutting children, sizes within the limit); the library checks almost none of them"
  },
  {
   "property": "C03",
   "status": "partial",
   "theorems": [
    "Liballocs.PageIndex.forest_partial",
    "Liballocs.PageIndex.overlap_accepted_fails",
    "Liballocs.PageIndex.truncEnd_child_fails",
    "Liballocs.PageIndex.split_child_fails"
   ],
   "note": "same conditions as C02"
  },
  {
   "property": "C04",
   "status": "partial",
   "theorems": [
    "Liballocs.PageIndex.delete_correct_partial",
    "Liballocs.PageIndex.delete_grown_fails"
   ],
   "note": "allocations no larger than the library's size limit"
  },
  {
   "property": "C05",
   "status": "partial",
   "theorems": [
    "Liballocs.PageIndex.extend_partial",
    "Liballocs.PageIndex.preExtend_correct",
    "Liballocs.PageIndex.preExtendUp_correct",
    "Liballocs.PageIndex.truncEnd_partial",
    "Liballocs.PageIndex.truncBegin_partial",
    "Liballocs.PageIndex.adjustEnd_partial",
    "Liballocs.PageIndex.extend_page_fails",
    "Liballocs.PageIndex.truncEnd_page_fails",
    "Liballocs.PageIndex.truncBegin_page_fails"
   ],
   "note": "growing downwards is exact; at the end and for truncation, allocations with no whole page at the boundary are excluded"
  },
  {
   "property": "C06",
   "status": "proved",
   "theorems": [
    "Liballocs.PageIndex.split_correct",
    "Liballocs.PageIndex.split_child_fails"
   ],
   "note": "sizes within the library's limit; a free slot"
  },
  {
   "property": "C07",
   "status": "proved",
   "theorems": [
    "Liballocs.PageIndex.toplevel_sorted"
   ],
   "note": "the library's own heap, the fixed start, is not deleted"
  },
  {
   "property": "C08",
   "status": "partial",
   "theorems": [
    "Liballocs.PageIndex.mapping_at_or_above_partial",
    "Liballocs.PageIndex.mapping_below",
    "Liballocs.PageIndex.mapping_at_or_above_fails"
   ],
   "note": "the query below is exact; the query at or above is exact if some mapping begins below the address"
  },
  {
   "property": "C09",
   "status": "partial",
   "theorems": [
    "Liballocs.PageIndex.common_parent_partial",
    "Liballocs.PageIndex.common_parent_fails"
   ],
   "note": "whatever is found is the nearest common ancestor; it is found when it is one of the two (within the depth stated) or the first one's parent with the second at least as deep"
  },
  {
   "property": "C10",
   "status": "partial",
   "theorems": [
    "Liballocs.MallocIndex.interior_lookup_partial",
    "Liballocs.MallocIndex.interior_lookup_fails",
    "Liballocs.MallocIndex.zero_request_out_of_bounds"
   ],
   "note": "proved for histories that never free or resize a promoted (>131072 usable bytes) chunk"
  },
  {
   "property": "C11",
   "status": "partial",
   "theorems": [
    "Liballocs.MallocIndex.only_live_found_partial",
    "Liballocs.MallocIndex.interior_lookup_fails"
   ],
   "note": "same restriction as C10"
  },
  {
   "property": "C12",
   "status": "partial",
   "theorems": [
    "Liballocs.Insert.site_roundtrip",
    "Liballocs.Insert.resolve_roundtrip_partial",
    "Liballocs.Insert.setType_roundtrip_partial",
    "Liballocs.Insert.queries_type_stable_partial",
    "Liballocs.Insert.low_type_never_recognised",
    "Liballocs.Insert.resolve_roundtrip_fails",
    "Liballocs.Insert.unrecognised_site_forgotten"
   ],
   "note": "type round-trip needs a type address of at least 2^35"
  },
  {
   "property": "C13",
   "status": "partial",
   "theorems": [
    "Liballocs.Insert.trailer_layout_partial",
    "Liballocs.Insert.huge_request_wraps",
    "Liballocs.Insert.trailer_layout_fails",
    "Liballocs.Insert.reported_size_short",
    "Liballocs.Insert.reported_size_fails",
    "Liballocs.Insert.reported_size_partial"
   ],
   "note": "layout needs the request not to wrap when the trailer is added; size reported by a query is short by the trailer when usable is tight"
  },
  {
   "property": "C14",
   "status": "proved",
   "theorems": [
    "Liballocs.Alloca.alloca_layout",
    "Liballocs.Alloca.alloca_layout_unaligned_fails"
   ],
   "note": "block assumed 8-aligned; the assumption is shown necessary"
  },
  {
   "property": "C15",
   "status": "proved",
   "theorems": [
    "Liballocs.Alloca.ensureCovers_keeps"
   ],
   "note": ""
  },
  {
   "property": "C16",
   "status": "partial",
   "theorems": [
    "Liballocs.Alloca.frame_exit_partial",
    "Liballocs.Alloca.frame_exit_fails"
   ],
   "note": "chunks of at most 131072 bytes"
  },
  {
   "property": "C17",
   "status": "proved",
   "theorems": [
    "Liballocs.Memtable.memtable_roundtrip",
    "Liballocs.Memtable.mapping_size_exact"
   ],
   "note": ""
  },
  {
   "property": "C18",
   "status": "partial",
   "theorems": [
    "Liballocs.Metavec.lookup_partial",
    "Liballocs.Metavec.bitmap_exact",
    "Liballocs.Metavec.sentinel_exact",
    "Liballocs.Metavec.shortcut_bounds",
    "Liballocs.Metavec.lookup_first_fails",
    "Liballocs.Metavec.lookup_beyond_fails",
    "Liballocs.Metavec.lookup_aligned_fails"
   ],
   "note": "byte granularity, aligned range start, addresses up to the coarse range of the last record, not the first record's own address"
  },
  {
   "property": "C19",
   "status": "partial",
   "theorems": [
    "Liballocs.Subobject.walk_spanning_partial",
    "Liballocs.Subobject.walk_nearest",
    "Liballocs.Subobject.walk_complete",
    "Liballocs.Subobject.walk_padding_fails",
    "Liballocs.Subobject.walk_empty_element_fails"
   ],
   "note": "exact for types without padding; with padding nothing spanning is missed (`walk_complete`); the calls made are characterised for all sorted types (`walk_nearest`)"
  },
  {
   "property": "C20",
   "status": "proved",
   "theorems": [
    "Liballocs.Subobject.find_correct",
    "Liballocs.Subobject.find_chain",
    "Liballocs.Subobject.find_cumulative_fails"
   ],
   "note": "members at different offsets must not overlap (struct and union layout); the separate cumulative-offset output is wrong below arrays (`find_cumulative_fails`)"
  },
  {
   "property": "C21",
   "status": "partial",
   "theorems": [
    "Liballocs.MapSeq.augment_wf_partial",
    "Liballocs.MapSeq.augment_inv",
    "Liballocs.MapSeq.augment_past_end_fails"
   ],
   "note": "the mapping lies inside the sequence or begins at its end (or is refused)"
  },
  {
   "property": "C22",
   "status": "partial",
   "theorems": [
    "Liballocs.MapSeq.augment_attrs_partial",
    "Liballocs.MapSeq.augment_position_fails",
    "Liballocs.MapSeq.augment_filename_fails"
   ],
   "note": "protection, flags, anonymity and caller are exact everywhere; file positions except above the range inside the entry it ends in"
  },
  {
   "property": "C23",
   "status": "partial",
   "theorems": [
    "Liballocs.MapSeq.delete_attrs_partial",
    "Liballocs.MapSeq.delete_wf_partial",
    "Liballocs.MapSeq.delete_middle_fails",
    "Liballocs.MapSeq.delete_position_fails"
   ],
   "note": "attributes exact whenever the call returns, and it returns for ranges at either end of the sequence; file positions except in the entry cut at its beginning"
  },
  {
   "property": "C24",
   "status": "proved",
   "theorems": [
    "Liballocs.Munmap.munmap_correct"
   ],
   "note": "page-aligned address; well-formed mappings (each sequence has its mapping's bounds); page-index operations as list operations; unbounded address arithmetic"
  },
  {
   "property": "C25",
   "status": "partial",
   "theorems": [
    "Liballocs.Brk.history_correct",
    "Liballocs.Brk.create_synced",
    "Liballocs.Brk.created_end_fails",
    "Liballocs.Brk.overlong_mapping_fails",
    "Liballocs.Brk.full_sequence_fails"
   ],
   "note": "exact after the first event; the break does not go below its first value, and the first mapping ends in the break's page"
  },
  {
   "property": "C26",
   "status": "partial",
   "theorems": [
    "Liballocs.SmallIndex.index_agrees_partial",
    "Liballocs.SmallIndex.live_unique",
    "Liballocs.SmallIndex.check_exact",
    "Liballocs.SmallIndex.index_refuses",
    "Liballocs.SmallIndex.full_bucket_object_fails",
    "Liballocs.SmallIndex.full_bucket_fails",
    "Liballocs.SmallIndex.no_site_fails",
    "Liballocs.SmallIndex.size_fails"
   ],
   "note": "known sites, objects under 4 MiB that do not fill a 256-byte bucket, no bucket completely full; base and site, not size"
  },
  {
   "property": "C27",
   "status": "proved",
   "theorems": [
    "Liballocs.Cache.bookkeeping",
    "Liballocs.Cache.spec_bounded",
    "Liballocs.Cache.sanity_check_exact",
    "Liballocs.Cache.victim_in_range"
   ],
   "note": "up to 31 places (the default is 8); FIFO and linear build variants not modelled"
  },
  {
   "property": "C28",
   "status": "partial",
   "theorems": [
    "Liballocs.Cache.hit_sound_any",
    "Liballocs.Cache.hit_sound_typed_partial",
    "Liballocs.Cache.hit_sound_typed_fails",
    "Liballocs.Cache.period_truncated"
   ],
   "note": "untyped lookups in full; typed lookups do not enforce the required period at the base"
  },
  {
   "property": "C29",
   "status": "partial",
   "theorems": [
    "Liballocs.Cache.invalidate_partial",
    "Liballocs.Cache.invalidate_fails"
   ],
   "note": "records starting in the range are all removed, and no others"
  },
  {
   "property": "C30",
   "status": "partial",
   "theorems": [
    "Liballocs.Cache.base_query_partial",
    "Liballocs.Cache.base_query_fails"
   ],
   "note": "cacheable allocators must invalidate when an allocation goes away"
  },
  {
   "property": "C31",
   "status": "partial",
   "theorems": [
    "Liballocs.Allocsites.id_roundtrip_partial",
    "Liballocs.Allocsites.id_of_unknown_fails",
    "Liballocs.Allocsites.id_collision_fails",
    "Liballocs.Allocsites.spine_overrun_fails"
   ],
   "note": "at most 256 files with tables and 65535 sites together; the theorem also shows that loading then never aborts"
  },
  {
   "property": "C32",
   "status": "partial",
   "theorems": [
    "Liballocs.Allocsites.entry_lookup_partial",
    "Liballocs.Allocsites.entry_lookup_fails"
   ],
   "note": "the lookup has no equality check"
  },
  {
   "property": "C33",
   "status": "partial",
   "theorems": [
    "Liballocs.PackedSeq.query_partial",
    "Liballocs.PackedSeq.query16_partial",
    "Liballocs.PackedSeq.query32_partial",
    "Liballocs.PackedSeq.record_widths",
    "Liballocs.PackedSeq.query_no_metavector_fails",
    "Liballocs.PackedSeq.query_unlisted_fails",
    "Liballocs.PackedSeq.query_big_fails",
    "Liballocs.PackedSeq.query_padding_fails",
    "Liballocs.PackedSeq.query_overrun_fails"
   ],
   "note": "families with a metavector whose records fit their bit-fields; any family alignment"
  },
  {
   "property": "C34",
   "status": "partial",
   "theorems": [
    "Liballocs.PackedSeq.walk_partial",
    "Liballocs.PackedSeq.string8_walk",
    "Liballocs.PackedSeq.string8_laid",
    "Liballocs.PackedSeq.walk_metadata_fails",
    "Liballocs.PackedSeq.walk_bounded_fails",
    "Liballocs.PackedSeq.walk_middle_fails"
   ],
   "note": "families without a metavector, ranges that begin at an element, and no upper bound unless all is cached already"
  },
  {
   "property": "C35",
   "status": "proved",
   "theorems": [
    "Liballocs.Lifetime.freed_at_last_policy",
    "Liballocs.Lifetime.freed_with_policy_fails"
   ],
   "note": "policy ids 0..3, the width of the field"
  },
  {
   "property": "C36",
   "status": "partial",
   "theorems": [
    "Liballocs.Lifetime.register_partial",
    "Liballocs.Lifetime.register_full",
    "Liballocs.Lifetime.register_overruns",
    "Liballocs.Lifetime.register_fails"
   ],
   "note": "ids are distinct and in range for the first n-1 registrations; beyond the n-th it is refused"
  },
  {
   "property": "C37",
   "status": "partial",
   "theorems": [
    "Liballocs.Lifetime.notify_exact_partial",
    "Liballocs.Lifetime.notify_whole",
    "Liballocs.Lifetime.notify_copy_partial",
    "Liballocs.Lifetime.notify_copy_cut_partial",
    "Liballocs.Lifetime.notify_exact_fails",
    "Liballocs.Lifetime.notify_copy_fails"
   ],
   "note": "exact for whole objects and for cuts that do not fall before a later member"
  },
  {
   "property": "C38",
   "status": "partial",
   "theorems": [
    "Liballocs.Lifetime.refcount_balance",
    "Liballocs.Lifetime.callbacks_exact",
    "Liballocs.Lifetime.refcount_no_early_drop_partial",
    "Liballocs.Lifetime.refcount_no_early_drop_fails"
   ],
   "note": "balance is proved in full; no early drop excludes re-assigning a slot to the object it already points to"
  },
  {
   "property": "C39",
   "status": "partial",
   "theorems": [
    "Liballocs.Bfs.walk_bfs_partial",
    "Liballocs.Bfs.nested_array_fails",
    "Liballocs.Bfs.plain_pointer_fails",
    "Liballocs.Bfs.far_objects_fails",
    "Liballocs.Bfs.all_ones_fails",
    "Liballocs.Bfs.two_types_fails",
    "Liballocs.Bfs.several_roots_fails"
   ],
   "note": "objects within 2 GiB of each other, one type per address, no all-ones pointer words, objects that are not plain pointers and have no arrays below the top level"
  },
  {
   "property": "C40",
   "status": "partial",
   "theorems": [
    "Liballocs.Walk.walk_df_partial",
    "Liballocs.Walk.no_suballocator_fails",
    "Liballocs.Walk.df_imposed_fails"
   ],
   "note": "every big allocation reached has a suballocator (whose walk obeys its contract) and no imposed children"
  },
  {
   "property": "C41",
   "status": "partial",
   "theorems": [
    "Liballocs.Walk.walk_level_partial",
    "Liballocs.Walk.interleave_all",
    "Liballocs.Walk.kid_identity_fails",
    "Liballocs.Walk.kid_order_fails",
    "Liballocs.Walk.kid_not_imposed_fails",
    "Liballocs.Walk.kid_before_range_fails",
    "Liballocs.Walk.kid_after_range_fails",
    "Liballocs.Walk.kid_at_range_end_fails"
   ],
   "note": "children listed in address order and all imposed; for a child only its coordinate is right"
  },
  {
   "property": "C42",
   "status": "partial",
   "theorems": [
    "Liballocs.TypeMemo.array_partial",
    "Liballocs.TypeMemo.array_null_iff",
    "Liballocs.TypeMemo.array_len_refused",
    "Liballocs.TypeMemo.array_same_name_fails",
    "Liballocs.TypeMemo.array_size_fails",
    "Liballocs.TypeMemo.array_long_name_fails",
    "Liballocs.TypeMemo.unbounded_flexible_fails"
   ],
   "note": "base types with distinct simple names; element names up to 4000 bytes; sizes that fit 32 bits (member and argument names in the history as in C56 and C87)"
  },
  {
   "property": "C43",
   "status": "proved",
   "theorems": [
    "Liballocs.Sbrk.sbrk_refines",
    "Liballocs.Sbrk.sbrk_history"
   ],
   "note": ""
  },
  {
   "property": "C44",
   "status": "partial",
   "theorems": [
    "Liballocs.PrivHeap.index_tracks_live_partial",
    "Liballocs.PrivHeap.failed_realloc_unmarks",
    "Liballocs.PrivHeap.memalign_unmarked",
    "Liballocs.PrivHeap.free_null_aborts"
   ],
   "note": "excludes a failed realloc, posix_memalign and freeing null"
  },
  {
   "property": "C45",
   "status": "proved",
   "theorems": [
    "Liballocs.Addrlist.addrlist_set"
   ],
   "note": ""
  },
  {
   "property": "C46",
   "status": "partial",
   "theorems": [
    "Liballocs.LinearMalloc.linear_lookup_partial",
    "Liballocs.LinearMalloc.linear_lookup_fails",
    "Liballocs.LinearMalloc.zero_size_free_crashes",
    "Liballocs.LinearMalloc.full_index_overruns"
   ],
   "note": "all recorded chunks within 2 GiB of each other and the index not full"
  },
  {
   "property": "C47",
   "status": "partial",
   "theorems": [
    "Liballocs.Auxv.auxv_query_partial",
    "Liballocs.Auxv.auxv_type_count_partial",
    "Liballocs.Auxv.auxv_query_fails",
    "Liballocs.Auxv.env_type_fails"
   ],
   "note": "all bytes except the auxv terminator's trailing bytes and the byte one past the strings"
  },
  {
   "property": "C48",
   "status": "partial",
   "theorems": [
    "Liballocs.StackFrame.frame_query_sound",
    "Liballocs.StackFrame.frame_query_complete_partial",
    "Liballocs.StackFrame.frame_pointer_fails",
    "Liballocs.StackFrame.undescribed_function_fails",
    "Liballocs.StackFrame.return_address_fails",
    "Liballocs.Unwind.machine_stack_partial"
   ],
   "note": "soundness in full relative to the description table; completeness for chains in which areas are in address order and available caller frame pointers are not below the frame"
  },
  {
   "property": "C49",
   "status": "partial",
   "theorems": [
    "Liballocs.StaticSym.static_query_partial",
    "Liballocs.StaticSym.past_end_fails",
    "Liballocs.StaticSym.reloc_size_fails",
    "Liballocs.StaticSym.nested_symbol_fails",
    "Liballocs.StaticSym.no_bigalloc_fails"
   ],
   "note": "disjoint objects; not the address one past an object; not the size of relocation targets"
  },
  {
   "property": "C50",
   "status": "partial",
   "theorems": [
    "Liballocs.Insert.query_keeps_lifetime_partial",
    "Liballocs.Insert.query_drops_lifetime",
    "Liballocs.Insert.setType_drops_lifetime",
    "Liballocs.Insert.query_keeps_lifetime_fails"
   ],
   "note": "holds for debug-build queries that find no type"
  },
  {
   "property": "C51",
   "status": "partial",
   "theorems": [
    "Liballocs.Insert.fresh_policies_partial",
    "Liballocs.Insert.fresh_policies_fails"
   ],
   "note": "holds when the memory's previous low bits were zero"
  },
  {
   "property": "C52",
   "status": "partial",
   "theorems": [
    "Liballocs.Insert.promoted_read_iff",
    "Liballocs.Insert.promoted_read_partial",
    "Liballocs.Insert.promoted_read_fails"
   ],
   "note": "holds exactly when usable = requested + 16"
  },
  {
   "property": "C53",
   "status": "partial",
   "theorems": [
    "Liballocs.MallocIndex.gap_query_partial",
    "Liballocs.MallocIndex.gap_query_fails"
   ],
   "note": "proved for addresses below every chunk start within reach"
  },
  {
   "property": "C54",
   "status": "partial",
   "theorems": [
    "Liballocs.PrivHeap.usable_covers_partial",
    "Liballocs.PrivHeap.realloc_usable_covers_partial",
    "Liballocs.PrivHeap.usable_covers_fails"
   ],
   "note": "needs the underlying allocator to leave room for the trailer"
  },
  {
   "property": "C55",
   "status": "partial",
   "theorems": [
    "Liballocs.TypeMemo.pointer_partial",
    "Liballocs.TypeMemo.pointer_same_name_fails"
   ],
   "note": "base types with distinct simple names; names up to 4000 bytes"
  },
  {
   "property": "C56",
   "status": "partial",
   "theorems": [
    "Liballocs.TypeMemo.union_partial",
    "Liballocs.TypeMemo.union_unsized",
    "Liballocs.TypeMemo.union_long_name",
    "Liballocs.TypeMemo.union_overrun_iff",
    "Liballocs.TypeMemo.union_concat_fails",
    "Liballocs.TypeMemo.union_overrun_fails"
   ],
   "note": "member names none of which is a prefix of another, fewer than 4096 bytes together"
  },
  {
   "property": "C57",
   "status": "partial",
   "theorems": [
    "Liballocs.SmallIndex.realloc_over_partial",
    "Liballocs.SmallIndex.realloc_over_fails"
   ],
   "note": "same conditions as C26"
  },
  {
   "property": "C58",
   "status": "proved",
   "theorems": [
    "Liballocs.PageIndex.create_correct",
    "Liballocs.PageIndex.overlap_accepted_fails"
   ],
   "note": "the condition that the range is apart from its siblings is part of the property; the library does not check it (`overlap_accepted_fails`)"
  },
  {
   "property": "C59",
   "status": "proved",
   "theorems": [
    "Liballocs.PageIndex.lookup_by_allocator",
    "Liballocs.PageIndex.lookup_top_level",
    "Liballocs.PageIndex.lookup_under_page",
    "Liballocs.PageIndex.leaf_allocator"
   ],
   "note": "histories as in C02"
  },
  {
   "property": "C60",
   "status": "partial",
   "theorems": [
    "Liballocs.PageIndex.delete_range_partial",
    "Liballocs.PageIndex.delete_range_fails"
   ],
   "note": "page-aligned beginning of the range"
  },
  {
   "property": "C61",
   "status": "proved",
   "theorems": [
    "Liballocs.PageIndex.delete_at"
   ],
   "note": "histories as in C02"
  },
  {
   "property": "C62",
   "status": "proved",
   "theorems": [
    "Liballocs.PageIndex.history_completes",
    "Liballocs.PageIndex.history_starts",
    "Liballocs.PageIndex.sanity_checks_pass"
   ],
   "note": "histories as in C02"
  },
  {
   "property": "C63",
   "status": "proved",
   "theorems": [
    "Liballocs.Mmap.mmap_correct"
   ],
   "note": ""
  },
  {
   "property": "C64",
   "status": "partial",
   "theorems": [
    "Liballocs.Mmap.mmap_completed_partial",
    "Liballocs.Mmap.mmap_fixed_inside",
    "Liballocs.Mmap.mmap_fixed_anon",
    "Liballocs.Mmap.mmap_unfixed_overlap",
    "Liballocs.Mmap.mmap_fixed_fails"
   ],
   "note": "notifications that complete; a fixed mapping inside a known one completes exactly when it may join the sequence (C66)"
  },
  {
   "property": "C65",
   "status": "partial",
   "theorems": [
    "Liballocs.Mmap.mremap_same",
    "Liballocs.Mmap.mremap_copy_partial",
    "Liballocs.Mmap.mremap_move_partial",
    "Liballocs.Mmap.mremap_shrink_partial",
    "Liballocs.Mmap.mremap_grow_partial",
    "Liballocs.Mmap.mremap_move_grow_partial",
    "Liballocs.Mmap.mremap_duplicate_partial",
    "Liballocs.Mmap.mremap_unrounded_fails",
    "Liballocs.Mmap.mremap_move_grow_fails",
    "Liballocs.Mmap.mremap_move_shrink_fails",
    "Liballocs.Mmap.mremap_onto_fails"
   ],
   "note": "moves that do not resize, resizes in place by whole pages or growth, targets in free address space, sequences wholly anonymous or wholly of one file"
  },
  {
   "property": "C66",
   "status": "partial",
   "theorems": [
    "Liballocs.MapSeq.join_exact",
    "Liballocs.MapSeq.join_one_file",
    "Liballocs.MapSeq.join_tidy_partial",
    "Liballocs.MapSeq.join_tidy_fails"
   ],
   "note": "joining is decided exactly; nameless memory stays last unless the same file is mapped directly after it, or a file over the start of a nameless sequence"
  },
  {
   "property": "C67",
   "status": "partial",
   "theorems": [
    "Liballocs.StackClaim.claim_exact",
    "Liballocs.StackClaim.query_claimed",
    "Liballocs.StackClaim.query_wild",
    "Liballocs.StackClaim.example_fits",
    "Liballocs.StackClaim.beyond_limit_fails"
   ],
   "note": "one stack in the chain; other allocators asked later are a parameter; address not in the lowest page"
  },
  {
   "property": "C68",
   "status": "partial",
   "theorems": [
    "Liballocs.LazyIndex.lazy_region",
    "Liballocs.LazyIndex.index_array",
    "Liballocs.LazyIndex.other_fault",
    "Liballocs.LazyIndex.other_fault_fails",
    "Liballocs.LazyIndex.unaligned_begin_fails",
    "Liballocs.LazyIndex.unaligned_end_fails"
   ],
   "note": "histories of accesses within the index; no other access raises the signal; mapping the piece succeeds"
  },
  {
   "property": "C69",
   "status": "partial",
   "theorems": [
    "Liballocs.Syscalls.transparent_partial",
    "Liballocs.Syscalls.call_same",
    "Liballocs.Syscalls.mremap_placed_fails"
   ],
   "note": "programs that make no unplaced `mremap` (unless the trap handler is not in the library's own object) and do not open or map while libdlbind opens an object; only the memory-map and open calls are looked at"
  },
  {
   "property": "C70",
   "status": "partial",
   "theorems": [
    "Liballocs.Syscalls.notified_partial",
    "Liballocs.Syscalls.mprotect_fails",
    "Liballocs.Syscalls.big_mapping_fails"
   ],
   "note": "all calls but `mprotect`; `munmap` answers 0 or an error"
  },
  {
   "property": "C71",
   "status": "partial",
   "theorems": [
    "Liballocs.Syscalls.preload_exact_partial",
    "Liballocs.Syscalls.errno_fails",
    "Liballocs.Syscalls.big_mapping_fails"
   ],
   "note": "`errno` is right exactly for mappings over four gigabytes or for EPERM"
  },
  {
   "property": "C72",
   "status": "partial",
   "theorems": [
    "Liballocs.Syscalls.own_disjoint",
    "Liballocs.Syscalls.own_aligned_partial",
    "Liballocs.Syscalls.dlbind_shared",
    "Liballocs.Syscalls.dlbind_open_partial",
    "Liballocs.Syscalls.own_unaligned_fails",
    "Liballocs.Syscalls.dlbind_wronly_fails"
   ],
   "note": "as long as the counter does not wrap; page-aligned if all lengths are whole pages; opens for both unless asked for writing only"
  },
  {
   "property": "C73",
   "status": "partial",
   "theorems": [
    "Liballocs.Syscalls.trap_handler_stays",
    "Liballocs.Syscalls.signal_answers",
    "Liballocs.Syscalls.index_handler_fails",
    "Liballocs.Syscalls.sigaction_ignored_fails"
   ],
   "note": "the underlying calls succeed; answers of `sigaction` on SIGILL tell the library's handler"
  },
  {
   "property": "C74",
   "status": "partial",
   "theorems": [
    "Liballocs.InnerType.inner_partial",
    "Liballocs.InnerType.inner_exact_partial",
    "Liballocs.InnerType.inner_err",
    "Liballocs.InnerType.tidy_fits",
    "Liballocs.InnerType.inner_padding_fails",
    "Liballocs.InnerType.inner_union_fails",
    "Liballocs.InnerType.inner_big_fails",
    "Liballocs.InnerType.inner_untyped_fails"
   ],
   "note": "offsets below 2^32; exact for types without padding, unions and empty members, otherwise right whenever the answer's object contains the address"
  },
  {
   "property": "C75",
   "status": "partial",
   "theorems": [
    "Liballocs.InlineCache.cached_partial",
    "Liballocs.InlineCache.aligned_stable",
    "Liballocs.InlineCache.cached_error_fails",
    "Liballocs.InlineCache.cached_subpage_fails",
    "Liballocs.InlineCache.cached_reuse_fails",
    "Liballocs.InlineCache.cached_crash_fails"
   ],
   "note": "no query fails, and a big allocation number stands for one allocator throughout (`aligned_stable`: so it does in an unchanged tree of page-aligned big allocations); only the type query; only allocators whose `get_type` can be called on their objects"
  },
  {
   "property": "C76",
   "status": "partial",
   "theorems": [
    "Liballocs.CallerWrap.sites_partial",
    "Liballocs.CallerWrap.at_rest_partial",
    "Liballocs.CallerWrap.outermost_site",
    "Liballocs.CallerWrap.preset_site",
    "Liballocs.CallerWrap.preset_reused",
    "Liballocs.CallerWrap.jump_site_fails",
    "Liballocs.CallerWrap.jump_freeing_fails"
   ],
   "note": "programs that do not longjmp (or throw) out of a wrapped function"
  },
  {
   "property": "C77",
   "status": "partial",
   "theorems": [
    "Liballocs.CallerWrap.suballoc_partial",
    "Liballocs.CallerWrap.resize_partial",
    "Liballocs.CallerWrap.nested_size_fails",
    "Liballocs.CallerWrap.nested_resize_fails",
    "Liballocs.CallerWrap.stale_size_fails"
   ],
   "note": "suballocating functions called by the program itself; reallocations with no size noted by another function"
  },
  {
   "property": "C78",
   "status": "partial",
   "theorems": [
    "Liballocs.Unwind.unwind_partial",
    "Liballocs.Unwind.walk_exact",
    "Liballocs.Unwind.walk_end",
    "Liballocs.Unwind.getContext_none_iff",
    "Liballocs.Unwind.context_shows",
    "Liballocs.Unwind.walk_ends",
    "Liballocs.Unwind.walk_sound",
    "Liballocs.Unwind.step_sound",
    "Liballocs.Unwind.step_crash_iff",
    "Liballocs.Unwind.big_frame_fails",
    "Liballocs.Unwind.low_stack_fails",
    "Liballocs.Unwind.negative_pointer_fails",
    "Liballocs.Unwind.misaligned_pointer_fails"
   ],
   "note": "exact up to the first activation of 64 KiB or more, for code with frame pointers and stacks above 256 MiB; ends and goes upwards in any user memory"
  },
  {
   "property": "C79",
   "status": "partial",
   "theorems": [
    "Liballocs.MetaDso.hexDigit_spec",
    "Liballocs.MetaDso.byPath_fits",
    "Liballocs.MetaDso.byPath_exact",
    "Liballocs.MetaDso.byPath_injective_partial",
    "Liballocs.MetaDso.long_path_fails",
    "Liballocs.MetaDso.byBuildId_cases",
    "Liballocs.MetaDso.byBuildId_exact",
    "Liballocs.MetaDso.byBuildId_overrun_iff",
    "Liballocs.MetaDso.byBuildId_injective_partial",
    "Liballocs.MetaDso.names_apart_partial",
    "Liballocs.MetaDso.long_base_fails",
    "Liballocs.MetaDso.search_spec",
    "Liballocs.MetaDso.find_partial",
    "Liballocs.MetaDso.base_gone_fails"
   ],
   "note": "names that fit the 4 KiB buffer; the file itself can be examined"
  },
  {
   "property": "C80",
   "status": "partial",
   "theorems": [
    "Liballocs.MetaDso.lifetime_partial",
    "Liballocs.MetaDso.shared_fails",
    "Liballocs.MetaDso.no_meta_fails"
   ],
   "note": "every file has metadata and no two share it"
  },
  {
   "property": "C81",
   "status": "partial",
   "theorems": [
    "Liballocs.MetaDso.typeSym_iff",
    "Liballocs.MetaDso.typeSym_partial",
    "Liballocs.MetaDso.typeSym_fails",
    "Liballocs.MetaDso.typeSym_code_fails",
    "Liballocs.MetaDso.header_fails",
    "Liballocs.MetaDso.header_all_fails",
    "Liballocs.MetaDso.scanInt_read"
   ],
   "note": "names whose code does not start with a decimal digit"
  },
  {
   "property": "C82",
   "status": "partial",
   "theorems": [
    "Liballocs.FileLoad.bounds_correct",
    "Liballocs.FileLoad.mappingOf_exact",
    "Liballocs.FileLoad.load_partial",
    "Liballocs.FileLoad.plug_partial",
    "Liballocs.FileLoad.plug_needs",
    "Liballocs.FileLoad.load_needs",
    "Liballocs.FileLoad.load_hole_partial",
    "Liballocs.FileLoad.sectionOf_iff",
    "Liballocs.FileLoad.exFile_ok",
    "Liballocs.FileLoad.tbss_fails",
    "Liballocs.FileLoad.second_file_aborts_fails",
    "Liballocs.FileLoad.second_file_overlaps_fails",
    "Liballocs.FileLoad.abut_fails"
   ],
   "note": "segments and sections disjoint, sections in segments, nothing else in the mapping up to the file's end; the sections are those librunt reports"
  },
  {
   "property": "C83",
   "status": "partial",
   "theorems": [
    "Liballocs.FileLoad.unload_partial",
    "Liballocs.FileLoad.roundtrip_partial",
    "Liballocs.FileLoad.same_name_fails"
   ],
   "note": "no file inside another; for the round trip a file as in C82 whose name no other file has"
  },
  {
   "property": "C84",
   "status": "proved",
   "theorems": [
    "Liballocs.MetavecBuild.records_exact",
    "Liballocs.MetavecBuild.order_irrelevant",
    "Liballocs.MetavecBuild.bits_exact",
    "Liballocs.MetavecBuild.bitmapWords_exact"
   ],
   "note": "statics are disjoint non-empty intervals below 4 GiB (the external tool library's contract)"
  },
  {
   "property": "C85",
   "status": "partial",
   "theorems": [
    "Liballocs.MetavecBuild.tool_to_query_partial",
    "Liballocs.MetavecBuild.extrasym_iff",
    "Liballocs.MetavecBuild.extrasym_index_fails",
    "Liballocs.MetavecBuild.extent_fails",
    "Liballocs.MetavecBuild.ex_described",
    "Liballocs.MetavecBuild.ex_ordered"
   ],
   "note": "sizes of places referred to, the byte after an object, and objects needing extra symbols are wrong"
  },
  {
   "property": "C86",
   "status": "partial",
   "theorems": [
    "Liballocs.MetavecBuild.target_partial",
    "Liballocs.MetavecBuild.target_rel_partial",
    "Liballocs.MetavecBuild.pcrel_iff",
    "Liballocs.MetavecBuild.unlisted_fails",
    "Liballocs.MetavecBuild.high_place_fails"
   ],
   "note": "places below 2 GiB, listed relocation types, nothing after the relocated field"
  },
  {
   "property": "C87",
   "status": "partial",
   "theorems": [
    "Liballocs.TypeMemo.function_partial",
    "Liballocs.TypeMemo.function_inj",
    "Liballocs.TypeMemo.function_overrun_iff",
    "Liballocs.TypeMemo.built_separable",
    "Liballocs.TypeMemo.built_names",
    "Liballocs.TypeMemo.built_fun",
    "Liballocs.TypeMemo.function_name_fails",
    "Liballocs.TypeMemo.function_same_name_fails",
    "Liballocs.TypeMemo.function_overrun_fails"
   ],
   "note": "base types with distinct simple names; argument names separable from a double underscore after them; at most 4062 bytes"
  },
  {
   "property": "C88",
   "status": "partial",
   "theorems": [
    "Liballocs.TypeMemo.precise_partial",
    "Liballocs.TypeMemo.precise_other",
    "Liballocs.TypeMemo.precise_wrap_fails",
    "Liballocs.TypeMemo.precise_big_fails"
   ],
   "note": "ranges below 4 GiB, fewer than 2^31 - 1 elements; names as for C42"
  },
  {
   "property": "C89",
   "status": "partial",
   "theorems": [
    "Liballocs.TypeMemo.addType_flexible_partial",
    "Liballocs.TypeMemo.addType_plain_partial",
    "Liballocs.TypeMemo.addType_wrap_fails",
    "Liballocs.TypeMemo.addType_again_fails",
    "Liballocs.TypeMemo.addType_large_fails",
    "Liballocs.TypeMemo.addType_void_fails"
   ],
   "note": "an element of either type fits the block; blocks below 4 GiB; names as for C42 and C56"
  },
  {
   "property": "C90",
   "status": "partial",
   "theorems": [
    "Liballocs.InnerType.flex_answer",
    "Liballocs.InnerType.flex_inner_partial",
    "Liballocs.InnerType.flex_long_fails",
    "Liballocs.InnerType.flex_wrap_fails",
    "Liballocs.InnerType.flex_inner_fails"
   ],
   "note": "addresses before which there are fewer whole elements than from them to the end"
  },
  {
   "property": "C91",
   "status": "proved",
   "theorems": [
    "Liballocs.StartScan.scan_exact",
    "Liballocs.StartScan.groups"
   ],
   "note": ""
  },
  {
   "property": "C92",
   "status": "proved",
   "theorems": [
    "Liballocs.StartScan.scan_missing",
    "Liballocs.StartScan.scan_again"
   ],
   "note": ""
  },
  {
   "property": "C93",
   "status": "partial",
   "theorems": [
    "Liballocs.StartScan.scan_sound_partial",
    "Liballocs.StartScan.reconcile_partial",
    "Liballocs.StartScan.past_end",
    "Liballocs.StartScan.inside_known",
    "Liballocs.StartScan.scan_file_fails"
   ],
   "note": "the file may be out of date where all entries agree"
  },
  {
   "property": "C94",
   "status": "partial",
   "theorems": [
    "Liballocs.StartScan.scan_exact",
    "Liballocs.StartScan.scan_again",
    "Liballocs.StartScan.odd_line_fails",
    "Liballocs.StartScan.preextend_fails",
    "Liballocs.StartScan.scan_preextend_fails",
    "Liballocs.StartScan.scan_across_fails",
    "Liballocs.StartScan.scan_huge_fails"
   ],
   "note": "other lines and conflicting known mappings"
  },
  {
   "property": "C95",
   "status": "partial",
   "theorems": [
    "Liballocs.StartScan.one_file_partial",
    "Liballocs.StartScan.one_file_fails"
   ],
   "note": "at most eight lines, at most 4 GiB"
  },
  {
   "property": "C96",
   "status": "partial",
   "theorems": [
    "Liballocs.ExecScan.execBounds_partial",
    "Liballocs.ExecScan.loop_tiles",
    "Liballocs.ExecScan.load_partial",
    "Liballocs.ExecScan.load_fails",
    "Liballocs.ExecScan.shared_page_fails"
   ],
   "note": "the table's own header comes first in it; no two segments share a page"
  },
  {
   "property": "C97",
   "status": "partial",
   "theorems": [
    "Liballocs.Query.base_partial",
    "Liballocs.Query.size_partial",
    "Liballocs.Query.type_partial",
    "Liballocs.Query.site_partial",
    "Liballocs.Query.agree",
    "Liballocs.Query.full_partial",
    "Liballocs.Query.unknown",
    "Liballocs.Query.leaf_exact",
    "Liballocs.Query.stack_garbage_fails",
    "Liballocs.Query.base_garbage_iff",
    "Liballocs.Query.size_garbage_iff",
    "Liballocs.Query.type_garbage_iff",
    "Liballocs.Query.linear_type_fails",
    "Liballocs.Query.crash_iff"
   ],
   "note": "not the stack outside frames, not the size of small objects found by a continuation, not the type of linker chunks, not the site of the library's own pools; exactly those return a variable never written or crash (`*_iff`)"
  },
  {
   "property": "C98",
   "status": "partial",
   "theorems": [
    "Liballocs.Query.debug_unchanged",
    "Liballocs.Query.stable_partial",
    "Liballocs.Query.plain_unchanged",
    "Liballocs.Query.plain_site",
    "Liballocs.Query.site_lost_fails"
   ],
   "note": "everything in debugging builds; type, base, size and allocator in others, and the site as long as neither type nor site was asked for"
  },
  {
   "property": "C99",
   "status": "partial",
   "theorems": [
    "Liballocs.Query.set_partial",
    "Liballocs.Query.hasSet_iff",
    "Liballocs.Query.set_silent_fails",
    "Liballocs.Query.set_ends_fails",
    "Liballocs.Query.set_site_fails"
   ],
   "note": "objects of malloc"
  },
  {
   "property": "C100",
   "status": "partial",
   "theorems": [
    "Liballocs.SmallTable.np2_least",
    "Liballocs.SmallTable.make_exact",
    "Liballocs.SmallTable.make_good",
    "Liballocs.SmallTable.place_partial",
    "Liballocs.SmallTable.spill_partial",
    "Liballocs.SmallTable.entries_partial",
    "Liballocs.SmallTable.small_chunk_fails",
    "Liballocs.SmallTable.large_chunk_fails",
    "Liballocs.SmallTable.huge_chunk_fails"
   ],
   "note": "chunks of up to 2 GiB that get a table; exactly which get one is `make_exact`"
  },
  {
   "property": "C101",
   "status": "proved",
   "theorems": [
    "Liballocs.SmallTable.column_spec",
    "Liballocs.SmallTable.free_spec",
    "Liballocs.SmallTable.store_spec",
    "Liballocs.SmallTable.remove_spec",
    "Liballocs.SmallTable.fresh_rep"
   ],
   "note": "a full column's loops run off the table, as `column_spec` says"
  },
  {
   "property": "C102",
   "status": "partial",
   "theorems": [
    "Liballocs.LdSoArena.ensure_partial",
    "Liballocs.LdSoArena.arenas_partial",
    "Liballocs.LdSoArena.one_each",
    "Liballocs.LdSoArena.free_null_fails",
    "Liballocs.LdSoArena.grown_fails",
    "Liballocs.LdSoArena.between_fails",
    "Liballocs.LdSoArena.swallow_fails",
    "Liballocs.LdSoArena.anon_fails"
   ],
   "note": "chunks in anonymous mappings with nothing else in them, or after the only file of a mapping"
  },
  {
   "property": "C103",
   "status": "proved",
   "theorems": [
    "Liballocs.Detour.field_exact",
    "Liballocs.Detour.jmp_exact",
    "Liballocs.Detour.rd_wr_self"
   ],
   "note": ""
  },
  {
   "property": "C104",
   "status": "partial",
   "theorems": [
    "Liballocs.Detour.detour_partial",
    "Liballocs.Detour.prologue_from",
    "Liballocs.Detour.prologue_cap",
    "Liballocs.Detour.Whole.fields",
    "Liballocs.Detour.relocate_spec",
    "Liballocs.Detour.stub_fails",
    "Liballocs.Detour.far_fails",
    "Liballocs.Detour.twice_fails"
   ],
   "note": "a working decoder (given as a parameter) and everything within reach"
  },
  {
   "property": "C105",
   "status": "proved",
   "theorems": [
    "Liballocs.DwarfMachine.get_eq",
    "Liballocs.DwarfMachine.put_eq",
    "Liballocs.DwarfMachine.drop_eq",
    "Liballocs.DwarfMachine.push_flat",
    "Liballocs.DwarfMachine.init_flat"
   ],
   "note": ""
  },
  {
   "property": "C106",
   "status": "partial",
   "theorems": [
    "Liballocs.DwarfMachine.invoke_iff",
    "Liballocs.DwarfMachine.invoke_partial",
    "Liballocs.DwarfMachine.straight_partial",
    "Liballocs.DwarfMachine.fails_iff",
    "Liballocs.DwarfMachine.outcomes",
    "Liballocs.DwarfMachine.branch_fails",
    "Liballocs.DwarfMachine.runTime_partial",
    "Liballocs.DwarfMachine.runTime_fails"
   ],
   "note": "programs without branches, or with branches only to the end or to no-ops; signed overflow and division by zero are failures"
  },
  {
   "property": "C107",
   "status": "partial",
   "theorems": [
    "Liballocs.FrameTypes.member_partial",
    "Liballocs.FrameTypes.offset_partial",
    "Liballocs.FrameTypes.total_partial",
    "Liballocs.FrameTypes.frame_at",
    "Liballocs.FrameTypes.table_spec",
    "Liballocs.FrameTypes.ex_tidy",
    "Liballocs.FrameTypes.twin_fails",
    "Liballocs.FrameTypes.base_fails",
    "Liballocs.FrameTypes.hash_fails",
    "Liballocs.FrameTypes.big_fails"
   ],
   "note": "no base address selection entries, distinct hashes and keys, code not shared, offsets within a gigabyte"
  },
  {
   "property": "C108",
   "status": "partial",
   "theorems": [
    "Liballocs.FrameTypes.live_partial",
    "Liballocs.FrameTypes.gap_fails"
   ],
   "note": "addresses in an interval described"
  },
  {
   "property": "C109",
   "status": "partial",
   "theorems": [
    "Liballocs.FrameTypes.query_partial",
    "Liballocs.FrameTypes.size_partial",
    "Liballocs.FrameTypes.ex_disjoint",
    "Liballocs.FrameTypes.overlap_fails",
    "Liballocs.FrameTypes.wrap_fails"
   ],
   "note": "sizes are known and variables above the frame's base do not overlap"
  },
  {
   "property": "C110",
   "status": "partial",
   "theorems": [
    "Liballocs.Sizeof.terminates_partial",
    "Liballocs.Sizeof.Ends.unique",
    "Liballocs.Sizeof.short",
    "Liballocs.Sizeof.Ex1.growing",
    "Liballocs.Sizeof.diverges_fails"
   ],
   "note": "assignments ordered by rank, apart from those that scale a variable or add padding to it"
  },
  {
   "property": "C111",
   "status": "partial",
   "theorems": [
    "Liballocs.Sizeof.sound_partial",
    "Liballocs.Sizeof.alloc_partial",
    "Liballocs.Sizeof.expr_sound",
    "Liballocs.Sizeof.Ex1.run_exists",
    "Liballocs.Sizeof.flow_fails",
    "Liballocs.Sizeof.call_fails",
    "Liballocs.Sizeof.part_fails",
    "Liballocs.Sizeof.stale_fails",
    "Liballocs.Sizeof.padding_fails",
    "Liballocs.Sizeof.flag_fails",
    "Liballocs.Sizeof.trailing_fails",
    "Liballocs.Sizeof.count_fails"
   ],
   "note": "variables with one assignment from others, only products and sums of sizes, no overflow"
  },
  {
   "property": "C112",
   "status": "proved",
   "theorems": [
    "Liballocs.Sizeof.recognised",
    "Liballocs.Sizeof.nothing_from_nothing",
    "Liballocs.Sizeof.flag_whole",
    "Liballocs.Sizeof.printed",
    "Liballocs.Sizeof.less_last"
   ],
   "note": ""
  },
  {
   "property": "C113",
   "status": "partial",
   "theorems": [
    "Liballocs.AllocCalls.direct_spec",
    "Liballocs.AllocCalls.match_spec",
    "Liballocs.AllocCalls.sizeArg_spec",
    "Liballocs.AllocCalls.indirect_spec",
    "Liballocs.AllocCalls.known_ok",
    "Liballocs.AllocCalls.calloc_fails",
    "Liballocs.AllocCalls.indirect_fails",
    "Liballocs.AllocCalls.bracket_fails"
   ],
   "note": "well-formed signatures"
  },
  {
   "property": "C114",
   "status": "partial",
   "theorems": [
    "Liballocs.AllocCalls.group_flat",
    "Liballocs.AllocCalls.group_proper",
    "Liballocs.AllocCalls.group_labelled",
    "Liballocs.AllocCalls.regroup_fails"
   ],
   "note": "the grouping function itself, given the labels"
  },
  {
   "property": "C115",
   "status": "partial",
   "theorems": [
    "Liballocs.CilTypes.name_partial",
    "Liballocs.CilTypes.enc_spec",
    "Liballocs.CilTypes.fenc_spec",
    "Liballocs.CilTypes.tag_fails",
    "Liballocs.CilTypes.args_fails",
    "Liballocs.CilTypes.same_fails"
   ],
   "note": "tags without `__` and `$`, not ending in `_`"
  },
  {
   "property": "C116",
   "status": "partial",
   "theorems": [
    "Liballocs.CilTypes.ident_inj",
    "Liballocs.CilTypes.unident_ident",
    "Liballocs.CilTypes.ident_chars_partial",
    "Liballocs.CilTypes.backslash_fails"
   ],
   "note": "strings without backslash for the alphabet"
  },
  {
   "property": "C117",
   "status": "partial",
   "theorems": [
    "Liballocs.CilTypes.match_spec",
    "Liballocs.CilTypes.Signs.symm",
    "Liballocs.CilTypes.Signs.trans",
    "Liballocs.CilTypes.singly_spec",
    "Liballocs.CilTypes.dims_decay",
    "Liballocs.CilTypes.collapse_fails",
    "Liballocs.CilTypes.generic_fails"
   ],
   "note": "all but the dimensions"
  },
  {
   "property": "C118",
   "status": "partial",
   "theorems": [
    "Liballocs.WalkRefs.refs_partial",
    "Liballocs.WalkRefs.environ_partial",
    "Liballocs.WalkRefs.tops_sound",
    "Liballocs.WalkRefs.tops_complete",
    "Liballocs.WalkRefs.tops_all",
    "Liballocs.WalkRefs.exW_forest",
    "Liballocs.WalkRefs.stop_fails"
   ],
   "note": "trees in which every big allocation has a suballocator, as for the walk; callbacks that stop by a positive answer"
  },
  {
   "property": "C119",
   "status": "partial",
   "theorems": [
    "Liballocs.RtTypes.one_object_partial",
    "Liballocs.RtTypes.bindings_kept",
    "Liballocs.RtTypes.types_kept",
    "Liballocs.RtTypes.arr0_fails",
    "Liballocs.RtTypes.intptr_fails"
   ],
   "note": "all but the zero-length array and `intptr_t`"
  },
  {
   "property": "C120",
   "status": "partial",
   "theorems": [
    "Liballocs.RtTypes.made_partial",
    "Liballocs.RtTypes.pointer_right",
    "Liballocs.RtTypes.complements_right",
    "Liballocs.RtTypes.ends",
    "Liballocs.RtTypes.auxv_fails",
    "Liballocs.RtTypes.ultimate_fails"
   ],
   "note": "programs whose own base types have room for a complement; not the array, `intptr_t` and the members' offsets of the auxiliary vector's type"
  },
  {
   "property": "C121",
   "status": "partial",
   "theorems": [
    "Liballocs.MergeSites.merge_partial",
    "Liballocs.MergeSites.right_record_partial",
    "Liballocs.MergeSites.no_record_partial",
    "Liballocs.MergeSites.read_written",
    "Liballocs.MergeSites.pad_order_partial",
    "Liballocs.MergeSites.inRange_partial",
    "Liballocs.MergeSites.script_partial",
    "Liballocs.MergeSites.pad_order_fails",
    "Liballocs.MergeSites.two_on_line_fails",
    "Liballocs.MergeSites.other_order_fails",
    "Liballocs.MergeSites.space_in_name_fails"
   ],
   "note": "inputs sorted as `LANG=C` does it, names without blanks, line numbers below a million"
  },
  {
   "property": "C122",
   "status": "partial",
   "theorems": [
    "Liballocs.ObjdumpMeta.script_partial",
    "Liballocs.ObjdumpMeta.mem_reports",
    "Liballocs.ObjdumpMeta.last_fails",
    "Liballocs.ObjdumpMeta.section_end_fails",
    "Liballocs.ObjdumpMeta.constructor_fails",
    "Liballocs.ObjdumpMeta.dots_fails",
    "Liballocs.ObjdumpMeta.window_fails"
   ],
   "note": "source text that does not look like other lines; regular expressions are not modelled"
  },
  {
   "property": "C123",
   "status": "proved",
   "theorems": [
    "Liballocs.StartUp.once",
    "Liballocs.StartUp.complete",
    "Liballocs.StartUp.all_set_up",
    "Liballocs.StartUp.ends"
   ],
   "note": ""
  },
  {
   "property": "C124",
   "status": "partial",
   "theorems": [
    "Liballocs.StartUp.succeeds_partial",
    "Liballocs.StartUp.query_fails",
    "Liballocs.StartUp.too_early_fails",
    "Liballocs.StartUp.order_fails"
   ],
   "note": "no queries from hooks"
  },
  {
   "property": "C125",
   "status": "proved",
   "theorems": [
    "Liballocs.LinkArgs.quote_word",
    "Liballocs.LinkArgs.args_words"
   ],
   "note": ""
  },
  {
   "property": "C126",
   "status": "partial",
   "theorems": [
    "Liballocs.LinkArgs.wrap_spec",
    "Liballocs.LinkArgs.globalize_only",
    "Liballocs.LinkArgs.local_fails",
    "Liballocs.LinkArgs.objcopy_fails"
   ],
   "note": "global symbols only; regular expressions are modelled as what they match"
  },
  {
   "property": "C127",
   "status": "partial",
   "theorems": [
    "Liballocs.LinkArgs.emit_spec",
    "Liballocs.LinkArgs.xwrap_new_partial",
    "Liballocs.LinkArgs.xwrap_old_partial",
    "Liballocs.LinkArgs.xwrap_sublist",
    "Liballocs.LinkArgs.rpath_partial",
    "Liballocs.LinkArgs.rpath_R",
    "Liballocs.LinkArgs.no_dir_fails",
    "Liballocs.LinkArgs.allocsld_partial",
    "Liballocs.LinkArgs.dyn_found",
    "Liballocs.LinkArgs.separate_fails",
    "Liballocs.LinkArgs.iterator_fails",
    "Liballocs.LinkArgs.iterator_new_fails",
    "Liballocs.LinkArgs.rpath_link_fails",
    "Liballocs.LinkArgs.joined_fails",
    "Liballocs.LinkArgs.joined_last_fails"
   ],
   "note": "each of the four checks by itself; options written in the usual way, not too many symbols; the library's files exist"
  },
  {
   "property": "C128",
   "status": "partial",
   "theorems": [
    "Liballocs.TypeNames.typeName_partial",
    "Liballocs.TypeNames.symbolName_sound",
    "Liballocs.TypeNames.symbolName_complete",
    "Liballocs.TypeNames.symbolName_alias",
    "Liballocs.TypeNames.symbolName_second",
    "Liballocs.TypeNames.display_codeless",
    "Liballocs.TypeNames.display_code",
    "Liballocs.TypeNames.display_inj",
    "Liballocs.TypeNames.display_other",
    "Liballocs.TypeNames.display_outOfBounds",
    "Liballocs.TypeNames.display_same_fails",
    "Liballocs.TypeNames.display_short_fails"
   ],
   "note": "codes of no or eight characters; one symbol at the record and none at its second byte"
  },
  {
   "property": "C129",
   "status": "partial",
   "theorems": [
    "Liballocs.TypeNames.iterateTypes_partial",
    "Liballocs.TypeNames.iterateTypes_all",
    "Liballocs.TypeNames.iterateTypes_find",
    "Liballocs.TypeNames.iterateTypes_skips",
    "Liballocs.TypeNames.iterateTypes_kernel",
    "Liballocs.TypeNames.iterateTypes_low",
    "Liballocs.TypeNames.wanted_exact",
    "Liballocs.TypeNames.walkSyms_exact",
    "Liballocs.TypeNames.twice_fails",
    "Liballocs.TypeNames.unnamed_fails",
    "Liballocs.TypeNames.exec_fails"
   ],
   "note": "objects loaded at a nonzero address, whose data symbols have names; one visit for each symbol"
  },
  {
   "property": "C130",
   "status": "partial",
   "theorems": [
    "Liballocs.MetaLoad.no_leak",
    "Liballocs.MetaLoad.handle_exact",
    "Liballocs.MetaLoad.hooks_exact",
    "Liballocs.MetaLoad.skipped_exact",
    "Liballocs.MetaLoad.meta_of_meta",
    "Liballocs.MetaLoad.others_loaded_partial",
    "Liballocs.MetaLoad.below_base_fails",
    "Liballocs.MetaLoad.short_fails"
   ],
   "note": "objects with absolute names"
  },
  {
   "property": "C131",
   "status": "partial",
   "theorems": [
    "Liballocs.Printing.decint_partial",
    "Liballocs.Printing.decint_negative",
    "Liballocs.Printing.decint_fails",
    "Liballocs.Printing.pid_exact",
    "Liballocs.Printing.pid_partial",
    "Liballocs.Printing.pid_fails"
   ],
   "note": "numbers that are not negative; process numbers below 100000"
  },
  {
   "property": "C132",
   "status": "partial",
   "theorems": [
    "Liballocs.Printing.strdup_exact",
    "Liballocs.Printing.strndup_exact",
    "Liballocs.Printing.strndup_whole_partial",
    "Liballocs.Printing.strndup_fails"
   ],
   "note": "bounds that do not cut the string"
  },
  {
   "property": "C133",
   "status": "partial",
   "theorems": [
    "Liballocs.StackInit.first_exact",
    "Liballocs.StackInit.again_same",
    "Liballocs.StackInit.again_end_fails",
    "Liballocs.StackInit.again_end_unreachable",
    "Liballocs.StackInit.again_begin_fails",
    "Liballocs.StackInit.again_cut",
    "Liballocs.StackInit.lowered_fails",
    "Liballocs.StackInit.raised_fails"
   ],
   "note": "the first time the mapping is seen, nothing having been made within it; the second sentence only if the second call changes nothing"
  },
  {
   "property": "C134",
   "status": "partial",
   "theorems": [
    "Liballocs.SmallHeap.calls_agree_partial",
    "Liballocs.SmallHeap.calls_agree_big_partial",
    "Liballocs.SmallHeap.index_first",
    "Liballocs.SmallHeap.unindex_where",
    "Liballocs.SmallHeap.unknown_aborts",
    "Liballocs.SmallHeap.foreign_aborts",
    "Liballocs.SmallHeap.small_chunk_fails"
   ],
   "note": "chunks of more than 256 bytes to 2 GiB, in a heap whose allocator knows them; objects that the table can hold (see C26)"
  },
  {
   "property": "C135",
   "status": "partial",
   "theorems": [
    "Liballocs.TrapScan.init_exact_partial",
    "Liballocs.TrapScan.init_again",
    "Liballocs.TrapScan.init_unlisted",
    "Liballocs.TrapScan.init_unopened",
    "Liballocs.TrapScan.fill_prefix",
    "Liballocs.TrapScan.fill_whole",
    "Liballocs.TrapScan.fill_cut",
    "Liballocs.TrapScan.linesOf_text",
    "Liballocs.TrapScan.walk_exact",
    "Liballocs.TrapScan.interp_known",
    "Liballocs.TrapScan.long_list_fails",
    "Liballocs.TrapScan.read_error_fails"
   ],
   "note": "lists of at most 520192 characters, no failed read"
  },
  {
   "property": "C136",
   "status": "partial",
   "theorems": [
    "Liballocs.EarlyFind.near_found_partial",
    "Liballocs.EarlyFind.indexed_found",
    "Liballocs.EarlyFind.later_absent",
    "Liballocs.EarlyFind.back_one",
    "Liballocs.EarlyFind.far_fails",
    "Liballocs.EarlyFind.unaligned_fails"
   ],
   "note": "addresses on the first page above the mapping, with the break allocation ending there"
  },
  {
   "property": "C137",
   "status": "partial",
   "theorems": [
    "Liballocs.StackWalk.walk_exact_partial",
    "Liballocs.StackWalk.walk_ignoring",
    "Liballocs.StackWalk.stale_bp_fails",
    "Liballocs.StackWalk.failure_ambiguous_fails",
    "Liballocs.StackWalk.top_sp_fails"
   ],
   "note": "every frame pointer is known to the unwinder; no stack pointer is the highest user address; a callback that returns -1 is not told from a failure"
  },
  {
   "property": "C138",
   "status": "partial",
   "theorems": [
    "Liballocs.WildReport.listing_exact",
    "Liballocs.WildReport.report_iff_partial",
    "Liballocs.WildReport.last_page_fails"
   ],
   "note": "the first address of the last page"
  },
  {
   "property": "C139",
   "status": "partial",
   "theorems": [
    "Liballocs.SegMeta.early_own_partial",
    "Liballocs.SegMeta.early_missing",
    "Liballocs.SegMeta.toolName_inj",
    "Liballocs.SegMeta.lookName_eq",
    "Liballocs.SegMeta.late_fails",
    "Liballocs.SegMeta.large_fails"
   ],
   "note": "early files, and addresses below 4 GiB; librunt is taken to define a file's segments within its own part of the load, as the comments at src/allocators/static-segment.c:109-114 say"
  },
  {
   "property": "C140",
   "status": "partial",
   "theorems": [
    "Liballocs.CcArgs.build_partial",
    "Liballocs.CcArgs.relocatable_partial",
    "Liballocs.CcArgs.deferred_iff",
    "Liballocs.CcArgs.build_stops",
    "Liballocs.CcArgs.same_name_fails",
    "Liballocs.CcArgs.repeat_fails",
    "Liballocs.CcArgs.repeat_opt_fails",
    "Liballocs.CcArgs.position_fails",
    "Liballocs.CcArgs.split_define_fails",
    "Liballocs.CcArgs.split_dir_fails",
    "Liballocs.CcArgs.xlinker_fails",
    "Liballocs.CcArgs.warning_fails",
    "Liballocs.CcArgs.version_fails",
    "Liballocs.CcArgs.shared_fails",
    "Liballocs.CcArgs.endopts_fails"
   ],
   "note": "command lines of the arguments listed in the specification, no two sources of the same name in different directories, no -MF, -MT or -MQ repeated; options keep their order but for repeats"
  },
  {
   "property": "C141",
   "status": "partial",
   "theorems": [
    "Liballocs.CcArgs.stop_partial",
    "Liballocs.CcArgs.depfile_fails",
    "Liballocs.CcArgs.depfile_name_fails",
    "Liballocs.CcArgs.language_fails",
    "Liballocs.CcArgs.stdin_language_fails",
    "Liballocs.CcArgs.stdin_fails",
    "Liballocs.CcArgs.warning_stop_fails",
    "Liballocs.CcArgs.ada_fails",
    "Liballocs.CcArgs.lang_ends",
    "Liballocs.CcArgs.hidden_fails",
    "Liballocs.CcArgs.hidden_language_fails"
   ],
   "note": "as for C140 but for the sources' names; some source has one of the phases that are run"
  },
  {
   "property": "C142",
   "status": "partial",
   "theorems": [
    "Liballocs.StubGen.wrapped_partial",
    "Liballocs.StubGen.fixup_exact",
    "Liballocs.StubGen.sz_never",
    "Liballocs.StubGen.again_fails",
    "Liballocs.StubGen.unsized_fails",
    "Liballocs.StubGen.marks_fail",
    "Liballocs.StubGen.letters_fail",
    "Liballocs.StubGen.arrow_fails",
    "Liballocs.StubGen.weak_fails",
    "Liballocs.StubGen.calloc_fails"
   ],
   "note": "one declaration for each function, just one marked argument, no function that is to leave the size noted, at most 64 arguments"
  },
  {
   "property": "C143",
   "status": "partial",
   "theorems": [
    "Liballocs.ExtraSyms.walk_partial",
    "Liballocs.ExtraSyms.named_if_loaded",
    "Liballocs.ExtraSyms.sizes_exact",
    "Liballocs.ExtraSyms.never_loaded",
    "Liballocs.ExtraSyms.query_fails",
    "Liballocs.ExtraSyms.quote_fails",
    "Liballocs.ExtraSyms.one_quote_fails",
    "Liballocs.ExtraSyms.backslash_fails"
   ],
   "note": "only the walk that allocsld makes; names without quotes, backslashes and newlines"
  },
  {
   "property": "C144",
   "status": "partial",
   "theorems": [
    "Liballocs.ChainLd.interp_exact",
    "Liballocs.ChainLd.interp_refused",
    "Liballocs.ChainLd.padded",
    "Liballocs.ChainLd.argv_exact",
    "Liballocs.ChainLd.argv_empty_fails",
    "Liballocs.ChainLd.chain_partial",
    "Liballocs.ChainLd.no_hook",
    "Liballocs.ChainLd.near_fails",
    "Liballocs.ChainLd.page_fails",
    "Liballocs.ChainLd.no_r_debug_fails"
   ],
   "note": "the linker's function does not begin within eleven bytes of a page's end, and what follows it within twelve bytes is not kept"
  },
  {
   "property": "C145",
   "status": "partial",
   "theorems": [
    "Liballocs.MonAlloca.behaves",
    "Liballocs.MonAlloca.indexed_partial",
    "Liballocs.MonAlloca.alloca_holds",
    "Liballocs.MonAlloca.exit_partial",
    "Liballocs.MonAlloca.aligned_fails",
    "Liballocs.MonAlloca.large_aborts"
   ],
   "note": "calls of __builtin_alloca_with_align, and chunks of more than 128 KiB, are not handled; functions are not left by longjmp"
  },
  {
   "property": "C146",
   "status": "proved",
   "theorems": [
    "Liballocs.TrapWrites.notified",
    "Liballocs.TrapWrites.writes_stored"
   ],
   "note": "nothing is volatile and no other thread writes; pointers stored by functions that were not changed (such as memcpy), by static initialisers and in local variables are not told"
  },
  {
   "property": "C147",
   "status": "partial",
   "theorems": [
    "Liballocs.CilSimp.simplify_partial",
    "Liballocs.CilSimp.stars_gone",
    "Liballocs.CilSimp.member_gone",
    "Liballocs.CilSimp.member_fails",
    "Liballocs.CilSimp.cast_fails",
    "Liballocs.CilSimp.twice_fails"
   ],
   "note": "casts between pointers to arrays and pointers to their elements are left out though they matter; members are seen through one level only"
  },
  {
   "property": "C148",
   "status": "partial",
   "theorems": [
    "Liballocs.HeapObj.heap_object_partial",
    "Liballocs.HeapObj.failed_realloc_fails",
    "Liballocs.HeapObj.large_setType_fails",
    "Liballocs.HeapObj.site_twice_fails"
   ],
   "note": "large chunks are not freed (C10) and have sixteen spare bytes (C52); types lie above 2^35 (C12); sizes reported are short (C13); an object's site is that of the last realloc, also if that failed, and is dropped by changes of type and by queries with NDEBUG"
  },
  {
   "property": "C149",
   "status": "partial",
   "theorems": [
    "Liballocs.SitePipe.typed_partial",
    "Liballocs.SitePipe.unknown_fails"
   ],
   "note": "calls for whose lines records of just one type exist, and as for C31, C121, C122 and C148"
  },
  {
   "property": "C150",
   "status": "partial",
   "theorems": [
    "Liballocs.StaticObj.static_partial",
    "Liballocs.StaticObj.between",
    "Liballocs.StaticObj.run_settled",
    "Liballocs.StaticObj.load_settles",
    "Liballocs.StaticObj.unload_settles",
    "Liballocs.StaticObj.create_quiet",
    "Liballocs.StaticObj.late_fails",
    "Liballocs.StaticObj.uncovered_fails",
    "Liballocs.StaticObj.exBin_ok",
    "Liballocs.StaticObj.exBin_known",
    "Liballocs.StaticObj.exists_run"
   ],
   "note": "early files whose sections and segments do not overlap, addresses in a section or in the data segment, and as for C82 and the tool's theorems"
  },
  {
   "property": "C151",
   "status": "partial",
   "theorems": [
    "Liballocs.FrameCompact.layout_partial",
    "Liballocs.FrameCompact.rows_once",
    "Liballocs.FrameCompact.run_total",
    "Liballocs.FrameCompact.types_known",
    "Liballocs.FrameCompact.untyped_aborts",
    "Liballocs.FrameCompact.gap_fails",
    "Liballocs.FrameCompact.triple_var",
    "Liballocs.FrameCompact.triple_piece",
    "Liballocs.FrameCompact.triple_wraps",
    "Liballocs.FrameCompact.dec_meant",
    "Liballocs.FrameCompact.registers_differ",
    "Liballocs.FrameCompact.continuing_iff"
   ],
   "note": "addresses at which something is live"
  },
  {
   "property": "C152",
   "status": "proved",
   "theorems": [
    "Liballocs.FrameCompact.last_option_wins",
    "Liballocs.FrameCompact.one_file"
   ],
   "note": "the arguments only"
  },
  {
   "property": "C153",
   "status": "proved",
   "theorems": [
    "Liballocs.SrcRec.gathered",
    "Liballocs.SrcRec.padded",
    "Liballocs.SrcRec.gather_lines",
    "Liballocs.SrcRec.fit_of",
    "Liballocs.SrcRec.writes_iff",
    "Liballocs.SrcRec.rec_name",
    "Liballocs.SrcRec.ident_back",
    "Liballocs.SrcRec.ident_same",
    "Liballocs.SrcRec.abspath_means",
    "Liballocs.SrcRec.found_iff",
    "Liballocs.SrcRec.digit_iff",
    "Liballocs.SrcRec.octal_field",
    "Liballocs.SrcRec.repad_fails"
   ],
   "note": "paths, names and lines that fit in one record: no blanks in paths and function names, fewer than a million lines, no tabs in tags (fit_of); what is gathered is what was written; the locale sorts by bytes"
  },
  {
   "property": "C154",
   "status": "partial",
   "theorems": [
    "Liballocs.SrcRec.path_partial",
    "Liballocs.SrcRec.path_fails"
   ],
   "note": "no directory and no earlier part of the name has a dot followed by c or i"
  },
  {
   "property": "C155",
   "status": "partial",
   "theorems": [
    "Liballocs.SrcRec.program_partial",
    "Liballocs.SrcRec.usual",
    "Liballocs.SrcRec.usual_has",
    "Liballocs.SrcRec.loaded",
    "Liballocs.SrcRec.empty_line",
    "Liballocs.SrcRec.line_fails"
   ],
   "note": "as C149; and all allocating calls in the lines of the call instruction are for the same type, which is not a pointer to void or char"
  },
  {
   "property": "C156",
   "status": "proved",
   "theorems": [
    "Liballocs.LdFlags.plugin_makes",
    "Liballocs.LdFlags.malloc_seen",
    "Liballocs.LdFlags.name_chars",
    "Liballocs.LdFlags.case_flags"
   ],
   "note": "functions and letters other than `w`"
  },
  {
   "property": "C157",
   "status": "partial",
   "theorems": [
    "Liballocs.LdFlags.flags_partial",
    "Liballocs.LdFlags.accepted_iff",
    "Liballocs.LdFlags.case_decls",
    "Liballocs.LdFlags.case_flags"
   ],
   "note": "no free function is declared (`accepted_iff` says just which declarations are accepted); every function has an argument and a result; the tools' directory has no blank, comma or backslash"
  },
  {
   "property": "C158",
   "status": "proved",
   "theorems": [
    "Liballocs.UsedTypes.codes_bound",
    "Liballocs.UsedTypes.codes_link",
    "Liballocs.UsedTypes.redefinitions_are",
    "Liballocs.UsedTypes.names_any_code",
    "Liballocs.UsedTypes.prefixed_fails",
    "Liballocs.UsedTypes.case_bound",
    "Liballocs.UsedTypes.case_tidy"
   ],
   "note": "definitions distinct, without equals signs, and with nothing before a code"
  },
  {
   "property": "C159",
   "status": "partial",
   "theorems": [
    "Liballocs.UsedTypes.template_partial",
    "Liballocs.UsedTypes.names_made",
    "Liballocs.UsedTypes.class_name",
    "Liballocs.UsedTypes.cxx_renamed",
    "Liballocs.UsedTypes.same_name_fails",
    "Liballocs.UsedTypes.digit_fails",
    "Liballocs.UsedTypes.deep_fails",
    "Liballocs.UsedTypes.pointer_fails",
    "Liballocs.UsedTypes.builtin_fails",
    "Liballocs.UsedTypes.pointer_and_class_fail",
    "Liballocs.UsedTypes.case_fails"
   ],
   "note": "classes whose names have one or two components that do not end in digits, with distinct names when written with __DOT_"
  },
  {
   "property": "C160",
   "status": "partial",
   "theorems": [
    "Liballocs.StackObj.type_partial",
    "Liballocs.StackObj.simple_partial",
    "Liballocs.StackObj.info_partial",
    "Liballocs.StackObj.query_same",
    "Liballocs.StackObj.walk_finds",
    "Liballocs.StackObj.told_within",
    "Liballocs.StackObj.ex_told",
    "Liballocs.StackObj.gap_query_fails"
   ],
   "note": "activations smaller than 64 KiB with frame pointers; each has a variable on the stack at its address, or is in a file without metadata or before all code with variables; variables at one address do not overlap and are below those of the caller"
  },
  {
   "property": "C161",
   "status": "partial",
   "theorems": [
    "Liballocs.CallRegexp.taken_iff",
    "Liballocs.CallRegexp.declared_taken",
    "Liballocs.CallRegexp.taken_declared",
    "Liballocs.CallRegexp.pointer_taken",
    "Liballocs.CallRegexp.call_recorded_partial",
    "Liballocs.CallRegexp.recorded_taken_partial",
    "Liballocs.CallRegexp.escape_literal",
    "Liballocs.CallRegexp.awk_double",
    "Liballocs.CallRegexp.names_declared",
    "Liballocs.CallRegexp.arrow_fails",
    "Liballocs.CallRegexp.blank_fails",
    "Liballocs.CallRegexp.no_names_fails",
    "Liballocs.CallRegexp.prefix_fails"
   ],
   "note": "names of letters, digits and underscores; declarations begin the variable and have the form name(letters)letter; names are known by their beginnings"
  },
  {
   "property": "C162",
   "status": "partial",
   "theorems": [
    "Liballocs.MetaBuild.link_found_partial",
    "Liballocs.MetaBuild.moved_found_partial",
    "Liballocs.MetaBuild.own_absolute",
    "Liballocs.MetaBuild.own_relative",
    "Liballocs.MetaBuild.disk_last",
    "Liballocs.MetaBuild.id_names",
    "Liballocs.MetaBuild.id_sound",
    "Liballocs.MetaBuild.found_sound",
    "Liballocs.MetaBuild.found_by_id",
    "Liballocs.MetaBuild.found_by_path",
    "Liballocs.MetaBuild.install_fails",
    "Liballocs.MetaBuild.stale_fails",
    "Liballocs.MetaBuild.blank_fails",
    "Liballocs.MetaBuild.base_fails",
    "Liballocs.MetaBuild.short_fails",
    "Liballocs.MetaBuild.mirror_fails",
    "Liballocs.MetaBuild.meta_refused"
   ],
   "note": "names without blanks, symbolic links, `.` and `..`; IDs of 20 bytes; the plugin's own metadata directory; a moved file keeps a time that is not later than its metadata's; the metadata previously under the name is older than the link"
  },
  {
   "property": "C163",
   "status": "partial",
   "theorems": [
    "Liballocs.PageIndex.checks_pass",
    "Liballocs.PageIndex.release_same",
    "Liballocs.PageIndex.new_checked",
    "Liballocs.PageIndex.reachC_iff",
    "Liballocs.PageIndex.full_check_passes",
    "Liballocs.PageIndex.top_check_passes",
    "Liballocs.PageIndex.check_finds",
    "Liballocs.PageIndex.top_check_finds_partial",
    "Liballocs.PageIndex.first_child_fails",
    "Liballocs.PageIndex.overlap_checked_fails",
    "Liballocs.PageIndex.top_check_fails"
   ],
   "note": "the alignment that an allocator asks for is not modelled; the top-level check is exact if the links go both ways"
  },
  {
   "property": "C164",
   "status": "partial",
   "theorems": [
    "Liballocs.Stats.answers_hold",
    "Liballocs.Stats.counters_exact",
    "Liballocs.Stats.counters_partial",
    "Liballocs.Stats.counters_fails",
    "Liballocs.Stats.sites_partial",
    "Liballocs.Stats.sites_sound",
    "Liballocs.Stats.sites_fails",
    "Liballocs.Stats.field_reads",
    "Liballocs.Stats.summary_tells",
    "Liballocs.Stats.labels_cover",
    "Liballocs.Stats.summary_printed",
    "Liballocs.Stats.summary_fails",
    "Liballocs.Stats.summary_case"
   ],
   "note": "counters do not wrap; the library makes no queries of its own and looks up no names (exact counts are proved for all calls); the list is exact in a debugging build"
  },
  {
   "property": "C165",
   "status": "partial",
   "theorems": [
    "Liballocs.ErrStream.stderr_exact",
    "Liballocs.ErrStream.file_exact",
    "Liballocs.ErrStream.file_partial",
    "Liballocs.ErrStream.file_never",
    "Liballocs.ErrStream.unopenable_never",
    "Liballocs.ErrStream.descriptors_never",
    "Liballocs.ErrStream.exit_stderr",
    "Liballocs.ErrStream.exit_file_never",
    "Liballocs.ErrStream.stderr_case",
    "Liballocs.ErrStream.file_fails",
    "Liballocs.ErrStream.unopenable_fails"
   ],
   "note": "a message fits the buffer of its stream"
  },
  {
   "property": "C166",
   "status": "partial",
   "theorems": [
    "Liballocs.AllocaObj.query_partial",
    "Liballocs.AllocaObj.clear_exact",
    "Liballocs.AllocaObj.gone_partial",
    "Liballocs.AllocaObj.objects_apart",
    "Liballocs.AllocaObj.cover_agrees",
    "Liballocs.AllocaObj.newBig_agrees",
    "Liballocs.AllocaObj.walk_all",
    "Liballocs.AllocaObj.case_legal",
    "Liballocs.AllocaObj.case_nested",
    "Liballocs.AllocaObj.interior_aborts",
    "Liballocs.AllocaObj.large_fails",
    "Liballocs.AllocaObj.zero_aborts",
    "Liballocs.AllocaObj.locals_fails",
    "Liballocs.AllocaObj.jump_fails",
    "Liballocs.AllocaObj.size_fails"
   ],
   "note": "an object has at least one byte and its chunk at most 131072; functions return (no longjmp); in a build with assertions the word below the address asked for is less than 2^25; the size is what is reported (16 less than the chunk's room)"
  },
  {
   "property": "C167",
   "status": "partial",
   "theorems": [
    "Liballocs.LdSoObj.told_partial",
    "Liballocs.LdSoObj.query_partial",
    "Liballocs.LdSoObj.arena_there",
    "Liballocs.LdSoObj.free_decides",
    "Liballocs.LdSoObj.typed_iff",
    "Liballocs.LdSoObj.cleared_bit",
    "Liballocs.LdSoObj.case_info",
    "Liballocs.LdSoObj.case_legal",
    "Liballocs.LdSoObj.shrink_fails",
    "Liballocs.LdSoObj.size_fails",
    "Liballocs.LdSoObj.policy_never",
    "Liballocs.LdSoObj.policy_fails"
   ],
   "note": "as C46 and C102; new memory is clear and chunks do not shrink; builds without lifetime policies; after realloc the size is a multiple of eight"
  },
  {
   "property": "C168",
   "status": "partial",
   "theorems": [
    "Liballocs.FrameTrad.described_partial",
    "Liballocs.FrameTrad.base_partial",
    "Liballocs.FrameTrad.size_partial",
    "Liballocs.FrameTrad.total_partial",
    "Liballocs.FrameTrad.case_alias",
    "Liballocs.FrameTrad.case_owned",
    "Liballocs.FrameTrad.no_place_aborts",
    "Liballocs.FrameTrad.same_aborts",
    "Liballocs.FrameTrad.unlisted_aborts",
    "Liballocs.FrameTrad.shared_fails",
    "Liballocs.FrameTrad.gap_fails",
    "Liballocs.FrameTrad.size_fails",
    "Liballocs.FrameTrad.comes_aborts",
    "Liballocs.FrameTrad.size_undefined"
   ],
   "note": "what is live at an address belongs to one subprogram; offsets are within a gigabyte; that the tool does not stop is proved where all that is live are variables on the stack, of known size, of listed subprograms"
  },
  {
   "property": "C169",
   "status": "partial",
   "theorems": [
    "Liballocs.AllocTypes.names_partial",
    "Liballocs.AllocTypes.ends_partial",
    "Liballocs.AllocTypes.output_partial",
    "Liballocs.AllocTypes.self_aborts",
    "Liballocs.AllocTypes.case_cell",
    "Liballocs.AllocTypes.case_class",
    "Liballocs.AllocTypes.case_aborts",
    "Liballocs.AllocTypes.case_same",
    "Liballocs.AllocTypes.case_sound"
   ],
   "note": "types of the same name are made of the same; no member's type is named by a typedef inside of what it stands for; the types created are needed by the sites"
  },
  {
   "property": "C170",
   "status": "partial",
   "theorems": [
    "Liballocs.DumpPtrs.vars_partial",
    "Liballocs.DumpPtrs.saved_iff",
    "Liballocs.DumpPtrs.saved_told",
    "Liballocs.DumpPtrs.saved_partial",
    "Liballocs.DumpPtrs.one_partial",
    "Liballocs.DumpPtrs.clean_partial",
    "Liballocs.DumpPtrs.total_partial",
    "Liballocs.DumpPtrs.case_run",
    "Liballocs.DumpPtrs.case_vars",
    "Liballocs.DumpPtrs.entry_fails",
    "Liballocs.DumpPtrs.shared_fails",
    "Liballocs.DumpPtrs.junk_fails",
    "Liballocs.DumpPtrs.origin_fails",
    "Liballocs.DumpPtrs.base_fails",
    "Liballocs.DumpPtrs.twin_fails",
    "Liballocs.DumpPtrs.before_fails",
    "Liballocs.DumpPtrs.brace_fails",
    "Liballocs.DumpPtrs.stops_aborts"
   ],
   "note": "no two subprograms have the same name, source file and directory; pointer variables have their type as an attribute of their own; a frame base that is used is the CFA; no pointer variable is where its subprogram saves a register; for saved registers, that nothing but what the row says is told needs FDEs whose rows agree (saved_iff says what is told in general)"
  },
  {
   "property": "C171",
   "status": "partial",
   "theorems": [
    "Liballocs.IfaceTypes.asked_exact",
    "Liballocs.IfaceTypes.asked_last",
    "Liballocs.IfaceTypes.defined_partial",
    "Liballocs.IfaceTypes.pointers_partial",
    "Liballocs.IfaceTypes.pointers_once",
    "Liballocs.IfaceTypes.pointers_defined",
    "Liballocs.IfaceTypes.all_pointers",
    "Liballocs.IfaceTypes.hexname_never",
    "Liballocs.IfaceTypes.hexname_only_never",
    "Liballocs.IfaceTypes.case_run",
    "Liballocs.IfaceTypes.case_request",
    "Liballocs.IfaceTypes.free_fails",
    "Liballocs.IfaceTypes.blank_fails",
    "Liballocs.IfaceTypes.great_fails",
    "Liballocs.IfaceTypes.twin_fails",
    "Liballocs.IfaceTypes.operator_fails",
    "Liballocs.IfaceTypes.long_fails"
   ],
   "note": "names do not begin with a hexadecimal digit, a sign or a blank; addresses (with blanks before, sign, 0x and any text after allowed) are not 0 or the greatest; lines fit the buffer; of elements of the same name only the last has a pointer; types of the same structure have the same name"
  },
  {
   "property": "C172",
   "status": "partial",
   "theorems": [
    "Liballocs.Symlinks.listed_partial",
    "Liballocs.Symlinks.circle_never",
    "Liballocs.Symlinks.sound_partial",
    "Liballocs.Symlinks.nowhere",
    "Liballocs.Symlinks.real_exists",
    "Liballocs.Symlinks.leads_det",
    "Liballocs.Symlinks.case_listed",
    "Liballocs.Symlinks.hidden_fails",
    "Liballocs.Symlinks.hop_aborts",
    "Liballocs.Symlinks.root_aborts",
    "Liballocs.Symlinks.circle_fails"
   ],
   "note": "links are to absolute paths other than the root, to a name in the same directory, or by a relative path without further links (that nothing else is listed is proved for all); everything on the way is there; texts have no doubled or trailing slashes"
  },
  {
   "property": "C173",
   "status": "partial",
   "theorems": [
    "Liballocs.BitmapText.compiled_partial",
    "Liballocs.BitmapText.reads_partial",
    "Liballocs.BitmapText.reads_det",
    "Liballocs.BitmapText.great_aborts",
    "Liballocs.BitmapText.shown_partial",
    "Liballocs.BitmapText.heading_exact",
    "Liballocs.BitmapText.indent_fails",
    "Liballocs.BitmapText.case_one",
    "Liballocs.BitmapText.case_indent",
    "Liballocs.BitmapText.case_build",
    "Liballocs.BitmapText.wide_fails"
   ],
   "note": "the segment is smaller than 4 GB; for the picture, it ends below address 4 GB and its bitmap starts at a multiple of 128, or the line is not the first"
  },
  {
   "property": "C174",
   "status": "partial",
   "theorems": [
    "Liballocs.MemAcc.writes_exact",
    "Liballocs.MemAcc.reads_complete",
    "Liballocs.MemAcc.reads_partial",
    "Liballocs.MemAcc.read_location",
    "Liballocs.MemAcc.first_never",
    "Liballocs.MemAcc.temps_exact",
    "Liballocs.MemAcc.call_fails",
    "Liballocs.MemAcc.sizeof_fails",
    "Liballocs.MemAcc.twice_fails",
    "Liballocs.MemAcc.case_listing",
    "Liballocs.MemAcc.case_plain",
    "Liballocs.MemAcc.case_call"
   ],
   "note": "for stores nothing is assumed; that no other reads are listed is proved without calls and without sizes or alignments of expressions; the locations of reads are those of the instruction before"
  },
  {
   "property": "C175",
   "status": "partial",
   "theorems": [
    "Liballocs.TwoLinks.last_partial",
    "Liballocs.TwoLinks.objects_partial",
    "Liballocs.TwoLinks.parts_exact",
    "Liballocs.TwoLinks.archive_done",
    "Liballocs.TwoLinks.shared_never",
    "Liballocs.TwoLinks.late_fails",
    "Liballocs.TwoLinks.taken_fails",
    "Liballocs.TwoLinks.early_fails",
    "Liballocs.TwoLinks.name_fails",
    "Liballocs.TwoLinks.case_last",
    "Liballocs.TwoLinks.case_objects",
    "Liballocs.TwoLinks.case_twice"
   ],
   "note": "that all named objects are there and nothing else is proved for all lists; that linking twice is like linking once is proved where libraries named by -l or as shared ones come last, and where there are no archives"
  },
  {
   "property": "C176",
   "status": "partial",
   "theorems": [
    "Liballocs.BuildSteps.status_iff",
    "Liballocs.BuildSteps.fails_at_once",
    "Liballocs.BuildSteps.final_run",
    "Liballocs.BuildSteps.loader",
    "Liballocs.BuildSteps.loader_none",
    "Liballocs.BuildSteps.library",
    "Liballocs.BuildSteps.used_last",
    "Liballocs.BuildSteps.relocs_never",
    "Liballocs.BuildSteps.shared_aborts",
    "Liballocs.BuildSteps.used_fails",
    "Liballocs.BuildSteps.case_program",
    "Liballocs.BuildSteps.case_shared",
    "Liballocs.BuildSteps.case_static"
   ],
   "note": "the form of the library, the dynamic linker and the status are proved for all settings; that relocation records are removed, that used types could be found, and that a shared library can use the library itself are not so"
  },
  {
   "property": "C177",
   "status": "partial",
   "theorems": [
    "Liballocs.LdSoWalk.instrument_partial",
    "Liballocs.LdSoWalk.iterate_found",
    "Liballocs.LdSoWalk.visit_found",
    "Liballocs.LdSoWalk.which_iff",
    "Liballocs.LdSoWalk.four",
    "Liballocs.LdSoWalk.readonly_aborts",
    "Liballocs.LdSoWalk.extra_aborts",
    "Liballocs.LdSoWalk.mapped_aborts",
    "Liballocs.LdSoWalk.case_good",
    "Liballocs.LdSoWalk.case_three",
    "Liballocs.LdSoWalk.twice_fails",
    "Liballocs.LdSoWalk.undefined_fails",
    "Liballocs.LdSoWalk.limit_fails"
   ],
   "note": "a decoder that works (given as a parameter), free pages, everything within two gigabytes, each function found once and defined"
  },
  {
   "property": "C178",
   "status": "partial",
   "theorems": [
    "Liballocs.GoldRead.used_exact",
    "Liballocs.GoldRead.read_made",
    "Liballocs.GoldRead.read_iff",
    "Liballocs.GoldRead.read_stops",
    "Liballocs.GoldRead.isRel_iff",
    "Liballocs.GoldRead.names_sorted",
    "Liballocs.GoldRead.join_under",
    "Liballocs.GoldRead.none_aborts",
    "Liballocs.GoldRead.rel_never",
    "Liballocs.GoldRead.case_read",
    "Liballocs.GoldRead.case_fails",
    "Liballocs.GoldRead.unset_fails"
   ],
   "note": "all but the last sentence; links without relocatable inputs and links to a relocatable output fail"
  },
  {
   "property": "C179",
   "status": "partial",
   "theorems": [
    "Liballocs.UsableSize.usable_partial",
    "Liballocs.UsableSize.null_malloc",
    "Liballocs.UsableSize.early_fails",
    "Liballocs.UsableSize.frame_fails",
    "Liballocs.UsableSize.thread_fails",
    "Liballocs.UsableSize.unclaimed_fails",
    "Liballocs.UsableSize.wide_fails",
    "Liballocs.UsableSize.case_good",
    "Liballocs.UsableSize.case_bound",
    "Liballocs.UsableSize.case_fails",
    "Liballocs.UsableSize.case_frame"
   ],
   "note": "what is answered is proved for all addresses; it is right for chunks of alloca on a limited initial stack, on the page of the stack pointer or on pages of which the stack is the deepest big allocation, and for chunks of malloc that are on none of these"
  },
  {
   "property": "C180",
   "status": "partial",
   "theorems": [
    "Liballocs.IfuncPos.resolve_partial",
    "Liballocs.IfuncPos.bound_alike",
    "Liballocs.IfuncPos.basename_iff",
    "Liballocs.IfuncPos.firstEntry_iff",
    "Liballocs.IfuncPos.renamed_never",
    "Liballocs.IfuncPos.alone_aborts",
    "Liballocs.IfuncPos.case_bound",
    "Liballocs.IfuncPos.name_fails",
    "Liballocs.IfuncPos.other_fails",
    "Liballocs.IfuncPos.kernel_fails"
   ],
   "note": "proved for all link maps, with the library known by its file's name"
  },
  {
   "property": "C181",
   "status": "partial",
   "theorems": [
    "Liballocs.LinkInfo.decode",
    "Liballocs.LinkInfo.link_partial",
    "Liballocs.LinkInfo.name_there",
    "Liballocs.LinkInfo.chunk_never",
    "Liballocs.LinkInfo.nameless_fails",
    "Liballocs.LinkInfo.zero_fails",
    "Liballocs.LinkInfo.case_link",
    "Liballocs.LinkInfo.case_table"
   ],
   "note": "proved for all types and objects walked by type, whatever the flags; names if the type has them"
  },
  {
   "property": "C182",
   "status": "partial",
   "theorems": [
    "Liballocs.SectionInfo.section_partial",
    "Liballocs.SectionInfo.site_run",
    "Liballocs.SectionInfo.site_never",
    "Liballocs.SectionInfo.search_partial",
    "Liballocs.SectionInfo.search_never",
    "Liballocs.SectionInfo.outside_file_faults",
    "Liballocs.SectionInfo.meta_by_addr",
    "Liballocs.SectionInfo.alloc_meta",
    "Liballocs.SectionInfo.scan_list",
    "Liballocs.SectionInfo.toFile_sound",
    "Liballocs.SectionInfo.exMem_describes"
   ],
   "note": "start and size of sections, records by address and new records are proved; the site is not said for any section, and the search is right only for a pointer it does not have"
  },
  {
   "property": "C183",
   "status": "partial",
   "theorems": [
    "Liballocs.SymAddr.alike_partial",
    "Liballocs.SymAddr.format_found",
    "Liballocs.SymAddr.ptr_reads",
    "Liballocs.SymAddr.unknown_text",
    "Liballocs.SymAddr.format_short",
    "Liballocs.SymAddr.site_iff",
    "Liballocs.SymAddr.direct_right",
    "Liballocs.SymAddr.long_never",
    "Liballocs.SymAddr.unknown_never",
    "Liballocs.SymAddr.indirect_fails",
    "Liballocs.SymAddr.quote_fails",
    "Liballocs.SymAddr.directory_fails",
    "Liballocs.SymAddr.case_found",
    "Liballocs.SymAddr.case_fits"
   ],
   "note": "proved for texts that fit and file names without a backquote, for addresses in symbols; for return addresses, when the call is direct or not at the start of its function"
  },
  {
   "property": "C184",
   "status": "partial",
   "theorems": [
    "Liballocs.Specific.specific_exact",
    "Liballocs.Specific.own_partial",
    "Liballocs.Specific.read_rest",
    "Liballocs.Specific.name_rest",
    "Liballocs.Specific.name_partial",
    "Liballocs.Specific.inside_never",
    "Liballocs.Specific.outside_aborts",
    "Liballocs.Specific.nested_fails"
   ],
   "note": "proved for big allocations in no other of the same allocator, and for addresses where strings start"
  },
  {
   "property": "C185",
   "status": "partial",
   "theorems": [
    "Liballocs.CuFiles.listed_iff",
    "Liballocs.CuFiles.count_partial",
    "Liballocs.CuFiles.path_partial",
    "Liballocs.CuFiles.lines_partial",
    "Liballocs.CuFiles.run_spec",
    "Liballocs.CuFiles.nodir_never",
    "Liballocs.CuFiles.emptydir_never",
    "Liballocs.CuFiles.relative_fails",
    "Liballocs.CuFiles.case_dir"
   ],
   "note": "proved for units with a name and an absolute directory"
  },
  {
   "property": "C186",
   "status": "partial",
   "theorems": [
    "Liballocs.NoopGen.symbols_partial",
    "Liballocs.NoopGen.chosen_iff",
    "Liballocs.NoopGen.chosen_nodup",
    "Liballocs.NoopGen.generated_iff",
    "Liballocs.NoopGen.nameless",
    "Liballocs.NoopGen.ifunc_partial",
    "Liballocs.NoopGen.mode_iff",
    "Liballocs.NoopGen.field_tabbed",
    "Liballocs.NoopGen.long_never",
    "Liballocs.NoopGen.short_never",
    "Liballocs.NoopGen.alias_never",
    "Liballocs.NoopGen.renamed_never",
    "Liballocs.NoopGen.nolinkage_aborts"
   ],
   "note": "proved for lists of six fields and lines below 4095 characters, and for functions whose linkage name is given and is their name"
  },
  {
   "property": "C187",
   "status": "partial",
   "theorems": [
    "Liballocs.TypedAlloc.size_sound",
    "Liballocs.TypedAlloc.gives_up_iff",
    "Liballocs.TypedAlloc.size_partial",
    "Liballocs.TypedAlloc.printed_iff",
    "Liballocs.TypedAlloc.archive_never",
    "Liballocs.TypedAlloc.static_fails"
   ],
   "note": "proved when the objects that are linked and have the function agree on its size"
  }
 ]
}