# Formal model of liballocs: design

Source: /repo (stephenrkell/liballocs, pinned). Everything below is a model read from the text of the code; nothing is extracted mechanically. Every definition under `lean/Verif/Model/` cites the lines it models and says where it simplifies. The English properties are in `properties.jsonl`, the theorem names in `MANIFEST.json`.

Layout: `lean/Verif/Model/X.lean` holds the model, `lean/Verif/Proofs/X.lean` (when present) helper lemmas, `lean/Verif/Props/X.lean` the specification, the property theorems and a concrete case for each. `lean/Verif/Props/RepoTests.lean` proves no property: it compares some models with the results asserted by the project's own tests (every assertion of `test_mapping_overlap`, and those of `tests/offsetof`, `sizeof-subtract`, `sizeof-derived`, `char-allocs`, `uniqtype-walk` and `packed-seq-walk`, the last with a smaller block and only its first walk).

## Properties, models, methods

| id | property | module | status | how |
|---|---|---|---|---|
| C01 | Page-index fill writes exactly the requested pages | Fill | proved | memset_bigalloc as written (ragged head, doubled words, ragged tail); pointwise characterisation |
| C02 | Address lookup returns the deepest live big allocation | PageIndex | partial | inductive invariant (forest, geometry, page index) over all histories from start-up; lookups specified by containment and ancestry |
| C03 | The allocation tree stays a tree | PageIndex | partial | same invariant |
| C04 | Deleting a big allocation removes exactly its subtree | PageIndex | partial | recursion over the child lists with a ghost deletion order; post-order and destructor log exact |
| C05 | Resizing a big allocation changes ownership only of the resized part | PageIndex | partial | page-index writes compared with the owner of every page before and after |
| C06 | Splitting a big allocation is a partition | PageIndex | proved | relinking of children by induction over the child list; same invariant |
| C07 | The list of top-level mappings is sorted and complete | PageIndex | proved | doubly-linked list segments; insertion by search from the fixed start |
| C08 | Nearest-mapping queries return the nearest mapping | PageIndex | partial | search lemmas on the sorted list |
| C09 | Common ancestor query returns the nearest common ancestor | PageIndex | partial | depth invariants of the recursion |
| C10 | Interior-pointer lookup finds the live heap chunk | MallocIndex | partial | bitmap with word-granular growth, biggest-unpromoted bound and promotion; refinement to the set of live chunks |
| C11 | Freed heap chunks stop being found | MallocIndex | partial | same invariant |
| C12 | Heap metadata word round-trips | Insert | partial | 64-bit word with bit-fields |
| C13 | Metadata never overlaps the caller's bytes | Insert | partial | 64-bit size arithmetic |
| C14 | Stack allocation sizing leaves room for header, object and trailer | Alloca | proved | size and address arithmetic of alloca adjustment |
| C15 | Alloca index growth keeps existing chunks | Alloca | proved | word-array bitmap with prepend; whole-map characterisation for any old/new start and any leftover memory |
| C16 | Leaving a frame unindexes exactly its alloca chunks | Alloca | partial | loop over the bitmap from the stack pointer; induction on remaining positions |
| C17 | Memory-table addressing round-trips | Memtable | proved | index/address arithmetic |
| C18 | Sorted metadata search returns the last entry at or below the address | Metavec | partial | loop invariant over generation (bitmap, shortcut entries) and the search; bit counting by its contract |
| C19 | Subobject search visits exactly the subobjects spanning an offset | Subobject | partial | bisection and scan verified against a filter specification; the callback is any function of the calls so far |
| C20 | Finding a matching subobject is sound and complete along the leftmost path | Subobject | proved | inductive subobject relations as specification |
| C21 | A mapping sequence stays contiguous and within capacity | MapSeq | partial | slot-level description of recording; invariant over the whole array including slots no longer in use |
| C22 | Recording a mapping replaces exactly its range | MapSeq | partial | pointwise: which entry covers each address before and after |
| C23 | Unmapping removes exactly the unmapped range | MapSeq | partial | first loop as a map over the array, compaction as a filter, contiguity as a chain |
| C24 | Unmapping updates the set of known mappings like the kernel does | Munmap | proved | loop invariant over a list of disjoint mappings, each with its mapping sequence (C23) |
| C25 | Heap-break changes keep the break area inside its mapping | Brk | partial | invariant over histories of events, every intermediate state recorded |
| C26 | Small-object index agrees with the live set | SmallIndex | partial | table columns are permutations of what the live objects call for; downward bucket search by induction; all debug checks shown to pass |
| C27 | The lookup cache's bookkeeping never breaks | Cache | proved | index-linked list with all debug sanity checks; refinement of every history to a most-recently-used list |
| C28 | A cache hit is a previously cached, still valid object containing the address | Cache | partial | consequence of the C27 refinement |
| C29 | Invalidating a range removes every cached fact about it | Cache | partial | consequence of the C27 refinement |
| C30 | Base query is independent of earlier queries | Cache | partial | cache plus live allocations; every history answers as the uncached query |
| C31 | Allocation-site ids round-trip | Allocsites | partial | invariant over any sequence of loads: consecutive id ranges in the spine; binary search by its contract |
| C32 | Unknown allocation sites are reported as unknown | Allocsites | partial | exact characterisation of every lookup |
| C33 | Packed-sequence element queries do not depend on query order | PackedSeq | partial | invariant over any history of queries and walks: the cache holds exactly some number of leading elements |
| C34 | Packed-sequence walks report each element's own metadata | PackedSeq | partial | same invariant; the string-table family is shown to enumerate exactly the NUL-terminated pieces of any bytes |
| C35 | An object is freed exactly when its last lifetime policy is removed | Lifetime | proved | 4-bit policy word refined to an abstract set, all histories |
| C36 | Registered lifetime policies get distinct usable ids | Lifetime | partial | table and 32-bit counter, all registration sequences |
| C37 | Copy notification covers exactly the copied bytes | Lifetime | partial | recursive walk over an inductive type; equals the filtered list of pointer slots |
| C38 | Reference counting callbacks balance | Lifetime | partial | callback log over all write histories; running count over every log prefix |
| C39 | Object-graph traversal visits each reachable object once | Bfs | partial | loop invariant with ghost distances; reachability through an inductive pointer-slot relation |
| C40 | Depth-first walk is pre-order with pruning and early stop | Walk | partial | refinement to a scan of the pre-order listing with depths; any callback with any state |
| C41 | Walking one level reports every child once in address order | Walk | partial | exact sequence of callbacks; the sequence has every chunk and every child once |
| C42 | Array-type creation is memoised correctly | TypeMemo | partial | invariant over all histories of array, pointer and union requests: names decode to what the type is |
| C43 | Private heap break never leaves its arena | Sbrk | proved | 64-bit arithmetic refined to an integer break clamped to the arena, all call sequences |
| C44 | Private-heap index tracks live chunks | PrivHeap | partial | index marks refined to the set of live chunks, all call histories and failure outcomes |
| C45 | Address lists are duplicate-aware sets | Addrlist | proved | growth invariant over all insertion sequences |
| C46 | Linker-malloc index finds the chunk containing an address | LinearMalloc | partial | record array with insertion, sort and binary search |
| C47 | Startup-vector queries classify every byte correctly | Auxv | partial | start-up area layout; region classification per address |
| C48 | Stack-frame search returns the frame containing the address | StackFrame | partial | walk over any chain of frames; description lookup specified independently |
| C49 | Static-object lookup returns the object containing the address | StaticSym | partial | search contract on a sorted table of disjoint objects |
| C50 | Looking at or setting an object's type leaves its lifetime alone | Insert | partial | 64-bit word with bit-fields |
| C51 | A new heap object starts with exactly the initial lifetime policies | Insert | partial | 64-bit word with bit-fields |
| C52 | Metadata read for an object is the metadata written for it | Insert | partial | 64-bit size arithmetic |
| C53 | An address in no live chunk is not attributed to a chunk | MallocIndex | partial | same invariant as C10 |
| C54 | Private-heap usable size is never smaller than the request | PrivHeap | partial | size arithmetic |
| C55 | Pointer-type creation is memoised correctly | TypeMemo | partial | same invariant; the pointee chain as an inductive relation |
| C56 | Union-type creation is memoised correctly | TypeMemo | partial | same invariant; unique decodability of prefix-free names |
| C57 | Allocating over unfreed small objects forgets exactly those | SmallIndex | partial | same invariant |
| C58 | Creating a big allocation takes exactly its range | PageIndex | proved | same invariant |
| C59 | Lookups by allocator, by top level and of the leaf allocator are exact | PageIndex | proved | same invariant; the leaf search is shown equal to the innermost lookup |
| C60 | Deleting everything that overlaps a range is exact | PageIndex | partial | induction over the top-level mappings left; runs of empty pages |
| C61 | Deleting by address deletes the right allocation | PageIndex | proved | lookup by allocator followed by deletion |
| C62 | The library's own consistency checks never fire under proper use | PageIndex | proved | same invariant; every abort and assertion of the operations is in the model |
| C63 | A new mapping in free address space is recorded exactly | Mmap | proved | case analysis of merging and creation over the sequence theorems of `MapSeq`; addresses specified by what a lookup followed by an entry search gives |
| C64 | A mapping over known mappings replaces exactly its range | Mmap | partial | same, with the cases where an unfitting request is refused or aborts |
| C65 | Remapping carries the record of a mapping along | Mmap | partial | loop invariant over the entries of the moved mapping, while the sequence may itself be extended by the loop |
| C66 | Mappings are grouped by file, and only as the grouping rules say | Join | partial | decision by cases over position, with edges and callers read off by address rather than by slot |
| C67 | An address below a stack is taken for the stack's only if the stack could have grown to it | StackClaim | partial | invariant of the page index; the distance test is specified by limits and by free address space |
| C68 | The lazily mapped page index reads as an array of zeros plus what was stored | LazyIndex | partial | refinement to an array: every piece is backed or unbacked as a whole |
| C69 | A program's system calls act as they would without the library | Syscalls | partial | simulation of the bare kernel, any kernel as a state machine and the program as a function of earlier answers |
| C70 | The allocators are told of exactly the changes the kernel made to the memory map | Syscalls | partial | case analysis of the dispatch table against an independent relation of calls, answers and changes |
| C71 | The library's own mmap does the same as a trapped mmap | Syscalls | partial | case analysis over the answer |
| C72 | Unplaced mappings by the library itself are asked for at disjoint page-aligned places, and mappings for libdlbind are shared | Syscalls | partial | induction over the requests with the area counter |
| C73 | A program cannot displace the trap handler, and its other signal handlers are its own | Syscalls | partial | induction over the requests |
| C74 | The inner type at an address is that of the innermost subobject there | InnerType | partial | induction over the nesting of types; paths through subobjects are specified by byte ranges alone |
| C75 | A type query with an inline cache answers as one without | InlineCache | partial | invariant on the cached pair over the queries; stability from the page index invariant |
| C76 | An allocation is attributed to the program's call of an allocation function | CallerWrap | partial | induction over programs; what should be recorded is read off the nesting of calls |
| C77 | The recorded size of a suballocation or reallocation is the one asked for | CallerWrap | partial | same |
| C78 | Unwinding shows the call stack | Unwind | partial | induction over the stack; a measure on the stack pointer |
| C79 | The metadata of a file is found under the names of that file, and only there | MetaDso | partial | computation of the buffer contents with the remaining length carried along; induction over the candidates |
| C80 | Metadata stays loaded as long as its file does, and no longer | MetaDso | partial | invariant on reference counts over load and unload sequences |
| C81 | A type is found by its linker name | MetaDso | partial | case analysis of the number read after the prefix |
| C82 | Loading a file makes its segments and sections known, in the right nesting, and nothing else | FileLoad | partial | stages: each loop adds big allocations below parents fixed before, on top of the page-index theorems |
| C83 | Unloading a file removes exactly what loading it added | FileUnload | partial | induction over the slots with the deletions so far composed; the log of destructor calls is exact |
| C84 | The table of static objects has one entry per object, in order | MetavecBuild | proved | induction over each pass with membership of the map characterised; sorted lists with the same members are equal |
| C85 | A static object described by the tools is found by the run-time query | MetavecBuild | partial | the emitted vector, resolved through the symbol tables, is shown tidy, then the query theorem of C49 applies |
| C86 | A relocation record is counted for the place it refers to | MetavecBuild | partial | arithmetic on the 64-bit sum and its 32-bit sign extension |
| C87 | Asking for a function type gives the function type asked for, once | TypeMemo | partial | the invariant of C42 with a clause for functions; argument lists over separable names decode uniquely; names built from plain ones are separable (induction on length) |
| C88 | A flexible array type made precise has as many elements as fit | TypeMemo | partial | C42 and division |
| C89 | Adding a type to a block makes it the union of what it was and an array of the type | TypeMemo | partial | composition of C42, C88 and C56 |
| C90 | The innermost type is found everywhere in a dynamically allocated array | InnerType | partial | the answer computed exactly, then C74 for the element |
| C91 | The start-up scan records exactly the memory map | StartScan | proved | the scan is shown to be: group the lines, then add the groups, by induction over the lines; the groups tell what the lines say; adding groups clear of what is known only appends |
| C92 | Scanning the memory map again adds only what is missing | StartScan | proved | the groups depend on the lines only; a present group is recognised by its entries |
| C93 | A scan that succeeds leaves the lines' truth, whatever was known | StartScan | partial | case analysis of reconciling; mappings that cover an added group end with it, so later groups cannot disturb it |
| C94 | The scan does not end the program | StartScan | partial | by C91 and C92 for maps with known kinds of line and known mappings equal to or clear of the new sequences |
| C95 | The mappings of one loaded file become one bigalloc | StartScan | partial | induction over the chain with the last entry's kind carried along |
| C96 | The executable's address range has no holes | ExecScan | partial | induction over the headers with the covered range carried along |
| C97 | The simple queries agree with each other, with the full query and with the object | Query | partial | case analysis of the allocators against a table of facts about the object |
| C98 | Asking does not change later answers | Query | partial | what a query may do to the state is shown to be nothing or one replacement, composed over the sequence |
| C99 | A type that was set is the type returned | Query | partial | computation, then C98 |
| C100 | The table made for a chunk of small objects has a place for every object in it | SmallTable | partial | the geometry is computed in closed form in exponents of two |
| C101 | The table of small objects in memory behaves as columns of entries | SmallTable | proved | refinement: a relation between flat memory and columns, kept by each operation |
| C102 | Every chunk of the dynamic linker's malloc lies in an arena of that allocator | LdSoArena | partial | induction over the chunks; making an arena for one address keeps the conditions for the others |
| C103 | Relocating a displaced instruction keeps what it refers to | Detour | proved | arithmetic modulo 2^64 and 2^32, both directions |
| C104 | A detoured function behaves as before when called through its trampoline | Detour | partial | induction over the decoded instructions and over their fields |
| C105 | The operand stack of a compiled DWARF expression is a stack | DwarfMachine | proved | induction over the sections |
| C106 | A compiled DWARF expression computes what the DWARF standard says | DwarfMachine | partial | simulation: each instruction of the code is a step of the standard's machine whose jumps skip an instruction, both directions, by induction over the fuel |
| C107 | Every variable on the stack is in its frame's description | FrameTypes | partial | interval maps as functions from addresses to sets, by induction over insertion; uniqueness of the record that covers an address |
| C108 | Frame descriptions list only variables that are live | FrameTypes | partial | from the same characterisation |
| C109 | A query for an address in a local variable finds its frame | FrameTypes | partial | C107 and the model of frame queries |
| C110 | The size analysis of a function ends | Sizeof | partial | induction over ranks: two passes side by side agree on one more rank each time; the same updates again change nothing, not even the list's order |
| C111 | An allocation's bytes are a multiple of the size of the type it is said to have | Sizeof | partial | the final environment is a solution of all assignments at once, by induction over ranks; then an invariant over runs in any order |
| C112 | Sizes of one type are recognised however they are computed | Sizeof | proved | induction over the expression and over passes |
| C113 | Just the calls of functions with signatures are allocations | AllocCalls | partial | string matching by induction |
| C114 | Allocating instructions get a group with their attribute | AllocCalls | partial | induction over the instructions |
| C115 | C types have the same name just if they are the same to the run time | CilTypes | partial | unique reading: what a name begins with tells its kind, and what follows a piece begins with two underscores |
| C116 | Identifiers made from strings can be read back | CilTypes | partial | reading back, by induction |
| C117 | Comparisons of C types modulo sign, and generic pointers | CilTypes | partial | induction over types |
| C118 | Walking references visits each reference once | WalkRefs | partial | the depth-first walk's theorem, and induction over the forest of what is below: a callback that filters and cuts off sees the topmost ones |
| C119 | Start-up keeps the program's types | RtTypes | partial | invariants over the steps: names stay bound, a variable agrees with its name |
| C120 | Types made at start-up are right | RtTypes | partial | an object just made is reached only by its own variable and name until it is paired |
| C121 | Call sites get the types of their source lines | MergeSites | partial | what a search leaves is what was there without records that are before the range, hence also before later ranges |
| C122 | Allocating calls are found in a disassembly | ObjdumpMeta | partial | the automaton's state between parts of a listing, by induction over the parts |
| C123 | Start-up happens once, whatever comes first | StartUp | proved | a call changes each initialiser not at all or runs it as a whole, by induction over the depth of calls; the number of initialisers not begun falls with each nesting |
| C124 | Start-up succeeds from any beginning | StartUp | partial | no query is left to be made from a hook, by induction over the depth of calls |
| C125 | File names survive the shell | LinkArgs | proved | induction over the text: in single quotes again after each character |
| C126 | The symbols asked for are the ones wrapped | LinkArgs | partial | what a name is taken apart into |
| C127 | The link is restarted once, with all its arguments | LinkArgs | partial | scanning a command line in parts; what the scan of the new one finds |
| C128 | A type's name is the name it was made from | TypeNames | partial | the symbol found by a fold over the table; what is left after the prefix |
| C129 | A walk over a metadata object's types visits each type once | TypeNames | partial | induction over the symbols; reading before a short name cannot change the comparison's answer |
| C130 | Loading metadata leaks nothing and does not feed on itself | MetaLoad | partial | all paths; balance of takings and givings at each point |
| C131 | Numbers in messages are right | Printing | partial | induction over the digits |
| C132 | Private copies of strings are strings | Printing | partial | what the new block holds |
| C133 | The initial stack is carved up right | StackInit | partial | two creations in a reachable forest |
| C134 | Announced small objects are shown | SmallHeap | partial | composition of page index, table geometry and small-object index; induction over histories |
| C135 | All code there at start-up is trapped | TrapScan | partial | round trip of the list through the reads, line splitting and filtering |
| C136 | Early on, an address up to which the break has moved is found | EarlyFind | partial | the search reduced to one step, then the break's history theorem (C25) |
| C137 | A walk over the stack shows each frame with its own registers | StackWalk | partial | induction over the frames, for any callback and state |
| C138 | The report on a wild pointer lists all memory known, once | WildReport | partial | invariant of the page index; word arithmetic |
| C139 | Each segment has the table that was made for it | SegMeta | partial | round trip of names from the tool to the look-up; induction over the headers |
| C140 | The wrapped compiler builds what the compiler would | CcArgs | partial | induction over the command line, from words to commands; dictionaries as lists without repeats |
| C141 | The wrapped compiler stops where it is told to | CcArgs | partial | as for C140 |
| C142 | Declared allocation functions are wrapped as declared | StubGen | partial | round trip of declarations through the pattern that reads them; unique names of the functions defined |
| C143 | Static objects without symbols can be queried | ExtraSyms | partial | round trip of the tables through the generated source, the two layers of string literals, and the look-up by name |
| C144 | The system's dynamic linker takes over unnoticed | ChainLd | partial | stores of bytes into memory with permissions; induction over the program headers |
| C145 | Instrumented functions do what they did, and their stack allocations are indexed until they return | MonAlloca | partial | simulation, step by step, of the changed function by the original one; invariant of counter and chunks |
| C146 | Code built to trap pointer writes does what it did, and tells of each pointer that it stores | TrapWrites | proved | simulation of the original by the changed program; induction over types for the calls made |
| C147 | A simplified C expression means what the expression meant | CilSimp | partial | mutual induction over expressions, lvalues and offsets, with C semantics |
| C148 | Whatever happened before, a query of a live heap object reports its start and its type | HeapObj | partial | invariant over histories that ties the index (C10), the metadata words (C12) and the bytes of memory together |
| C149 | A heap object is of the type that its source line was recorded with | SitePipe | partial | the theorems of C121, C122, C31 and C148 put together: the output of each stage is shown to be what the next one needs, in order and without repeats |
| C150 | A static object has the type, place and size that the tool found for it | StaticObj | partial | the theorems of C82, the table tool, the tables' loading and the table search put together, with an invariant over histories that every loaded file stays as its load left it |
| C151 | The compact frame description says what is on the stack at each address | FrameCompact | partial | interval maps as functions from addresses to sets; the loop over intervals by induction, with the layout last written as invariant |
| C152 | The last option that mentions a switch decides | FrameCompact | proved | induction over the argument list |
| C153 | What the compiler plug-in writes for calls is gathered for the linked file | SrcRec | proved | sorted lists without repetitions are told apart by their members; fields round trip through splitting and padding |
| C154 | Records are looked for beside the source | SrcRec | partial | induction over the path |
| C155 | A heap object has the type whose size the C source asked for | SrcRec | partial | composition of the size analysis (C110-C112), the gathered records (C153) and the tool chain and heap index (C149) |
| C156 | The linker plugin wraps the functions that its options name | LdFlags | proved | the option's language by derivatives of regular expressions; longest match and search of names; the macros by induction on the lists |
| C157 | Functions declared in the environment get their wrappers | LdFlags | partial | splitting and rewriting of declarations composed with C156; acceptance by what must surround parentheses in any accepted option |
| C158 | A reference to a type by its plain name is bound to the only type of that name | UsedTypes | proved | sorted lists and counts of equal keys; options parsed back into the renamings |
| C159 | A reference to a C++ class by template is bound to the class's type | UsedTypes | partial | induction over the components of mangled names, composed with C158 |
| C160 | Local variables have their declared types | StackObj | partial | the theorems of the frame table tool, of unwinding and of the descent into types put together; induction over the stack, with the place where each activation's variables begin |
| C161 | Every call of a declared allocation function is found in the binary | CallRegexp | partial | a parser of extended regular expressions, run over the text that the script makes: an escaped text is an expression for itself; the language of the whole by cases, composed with the listing script's theorem (C122) |
| C162 | The metadata made for a linked file is found for it, wherever the file goes | MetaBuild | partial | the text of od taken apart, the names compared with those of the search (C79), and induction over histories of the file system |
| C163 | The run-time checks of the table of big allocations never fail, and find what they look for | PageCheck | partial | part of the table closed under children, shown consistent in each intermediate state of creation, deletion, moving and splitting; induction over histories (refinement of the checked operations by those of C01) |
| C164 | The statistics printed at exit say what the queries did | Stats | partial | each call's effect on counters and list by cases, an invariant relating stored data to what was stored first, induction over histories; decimal printing read back |
| C165 | Diagnostics reach the place chosen for them, whole and in order | ErrStream | partial | induction over messages with the streams' unwritten text in the state; every character of the file traced to its place in a message, for every order of flushing |
| C166 | Objects made by alloca are found while their function runs, and not after | AllocaObj | partial | an invariant relating the stack of frames, their big allocations and bitmaps to the objects made; induction over histories |
| C167 | Objects of the dynamic linker's own malloc are known by their start, size and call | LdSoObj | partial | invariant over histories: the index (C46) and the word behind every object; composed with the arenas (C102) |
| C168 | The traditional frame types name what is on the stack at every address | FrameTrad | partial | an invariant relating the map of layouts to the intervals already written, induction over intervals and subprograms; counting entries shows that nothing was joined |
| C169 | All types that allocation sites need are declared before they are mentioned | AllocTypes | partial | closure of a depth-first walk with the names seen, by induction over the depth and over the elements; a measure from the names left and the typedefs to come |
| C170 | The tool that lists where frames keep pointers says what the debugging information does | DumpPtrs | partial | interval maps by what they have at each address, induction over entries, variables and rows; the search for an FDE's first segment |
| C171 | The interface-types tool answers for just the elements it is asked for | IfaceTypes | partial | induction over digits, lines and elements; a set of types up to structure; the last element of each name |
| C172 | All symbolic links on the way to a file are listed | Symlinks | partial | resolution of paths as a relation with its steps counted, strong induction over steps one way and over the depth of calls the other |
| C173 | The compiler reads back the bitmap that metavector has made | BitmapText | partial | taking out comments and reading constants as a specification with one reading at most; induction over the words with those not yet put out; places of digits in lines |
| C174 | The listing of memory accesses has the program's loads and stores | MemAcc | partial | loads by the rules of C, mutual induction over expressions, hosts and offsets, then over the program |
| C175 | What allocscc links is what the compiler would link | TwoLinks | partial | the linker's contract as a fold over inputs; a relocatable file stands for what was linked to it; induction over inputs |
| C176 | A build by allocscc that succeeds is whole | BuildSteps | partial | the outcome by cases over the settings and the outcomes of commands; the dynamic linker's name by induction over the section |
| C177 | All of the dynamic linker's allocation functions are detoured, each to its own detour | LdSoWalk | partial | induction over the symbols, with C104 for each function found; what is done for one is kept by the others |
| C178 | The plugin adds to a link the types that its inputs use, and all that goes with them | GoldRead | partial | the set of names by induction over the inputs; what is done by cases over the outcomes of commands; relocatable outputs with the linker's contract of C175 |
| C179 | The size of a chunk is read from where that kind of chunk has it | UsableSize | partial | the answer by cases, the page index by its invariant (C01 and its family): the deepest big allocation of a page is unique |
| C180 | A reference is bound to the real definition just when the library is loaded ahead of all others | IfuncPos | partial | the loop by induction over the link map; names of files specified by directories; the remembered answer by induction over the references |
| C181 | A callback can tell from its link what it has been called for | LinkInfo | partial | the word of a container is decoded by arithmetic on alignment; the coordinates of a walk (the model of C40 and C41) are those the macros ask for |
| C182 | The section allocator says what section an allocation is, and librunt finds its part of a file's record | SectionInfo | partial | the scan of the headers by induction against a search of the list (C82's model of loads); sections' ranges from the effect of a load; the pages by their invariant |
| C183 | A message says which place in the program it is about | SymAddr | partial | a text is divided at the first backquote and at the last plus sign in one way only, by induction; numbers by reading them back (C149's reader) |
| C184 | An allocator's own metadata are given for its allocations, and strings are named by their text | Specific | partial | the walk from the root, by C59; strings by induction on those before |
| C185 | The list of a binary's source files has every one, by a path that leads to it | CuFiles | partial | components of a path that ends one and starts another, by induction; walks in any file tree, with links and parents, compose |
| C186 | Every symbol in a list gets a function that does nothing, or one that chooses | NoopGen | partial | fields between tabs by induction on the fields; the fold over entries by induction from the end of the list |
| C187 | The wrapper of a typed allocation function has the size of what it allocates | TypedAlloc | partial | typedefs and qualifiers by induction on types; membership in what is printed, by induction on the objects |

## Where the code and the English property disagree

For each of these the model keeps the code's behaviour, a theorem proves the disagreement on a concrete witness, and the `_partial` theorem proves the property under the condition that excludes it.

* **C10** freeing a chunk promoted to a big allocation leaves its bitmap bit set, so a later lookup reports the freed chunk or hides the right one (`interior_lookup_fails`); a zero-byte chunk at the end of the bitmap is marked past the bitmap (`zero_request_out_of_bounds`).
* **C12** a uniqtype below 2^35 (non-PIE executable) is stored but the word is then not recognised as typed; an unrecognised call site is overwritten with the no-type word.
* **C13** requests within 16 bytes of 2^64 wrap to a tiny chunk; the size reported for a chunk subtracts the trailer twice, so it can be below the requested size.
* **C50** resolving an object's type on its first query (and setting its type) rewrites the whole word, clearing the attached lifetime policies.
* **C51** the initial policy is OR-ed into whatever the memory held before.
* **C52** for promoted chunks the trailer is looked for at the wrong offset unless the usable size is exactly requested + 16.
* **C53** there is no check that the address is before the end of the chunk found, so a gap is attributed to the chunk before it.
* **C16** a frame's alloca chunk of more than 131072 bytes is deducted from the counter but its index bit is left set (`frame_exit_fails`).
* **C35** attaching a policy whose id does not fit the 4-bit field silently attaches nothing (`freed_with_policy_fails`).
* **C36** the bound check is off by one: registration number n in a table of n writes one past the end (`register_overruns`, for every n).
* **C37** when the copy ends before a later member, the remaining length underflows and the member outside the range is reported (`notify_exact_fails`); a short copy into a pointer-free object wraps the remaining length (`notify_copy_fails`).
* **C38** drop callbacks run before add callbacks, so self-assignment of the only pointer takes the count to zero (`refcount_no_early_drop_fails`).
* **C44** a failed realloc unmarks a chunk that is still live; posix_memalign's success test is inverted so the chunk is never marked; freeing null aborts.
* **C46** the comparison truncates an address difference to int, so chunks more than 2 GiB apart are mis-sorted; freeing a zero-byte chunk dereferences null; record 254 overruns the index.
* **C47** bytes of the terminating auxv entry are not reported, one byte past the strings is; the environment vector's type always has one element.
* **C54** `usable_covers_fails` gives a request whose reported usable size is below what was requested.
* **C28** a typed lookup at a record's base hits whatever period is required (`hit_sound_typed_fails`); periods are truncated to 16 bits on insertion (`period_truncated`).
* **C29** a record that starts before the invalidated range and reaches into it is kept (`invalidate_fails`).
* **C30** the mmap allocator is cacheable but unmapping does not invalidate, so a stale base is answered (`base_query_fails`).
* **C31** addresses in no file get id 0, the id of a real site (`id_of_unknown_fails`); ids and counts are 16 bits wide, so a table of 65537 sites gives every site id 0 (`id_collision_fails`); the 257th table is written past the spine (`spine_overrun_fails`).
* **C32** an address in a file that is not a site is answered with the nearest site below (`entry_lookup_fails`).
* **C18** a lookup of the first record's own address answers none (`lookup_first_fails`); beyond the last record's coarse range the sentinel is used as an index (`lookup_beyond_fails`); for object alignments above 1 the bitmap is written and read in different units (`lookup_aligned_fails`).
* **C19** in padding the preceding member is visited although it does not contain the offset (`walk_padding_fails`); an array of empty elements divides by zero (`walk_empty_element_fails`).
* **C20** the cumulative offset reported by the subobject search does not include array element offsets (`find_cumulative_fails`).
* **C21** a mapping that overlaps the last entry and reaches past the end of the sequence fails an assertion (`augment_past_end_fails`).
* **C22** when a mapping is recorded over the lower part of an entry, the remaining upper part keeps the old file offset, so its pages are said to be backed by other file positions (`augment_position_fails`); a file mapping recorded over the start of an anonymous sequence leaves the sequence nameless (`augment_filename_fails`).
* **C23** deleting whole entries from the middle of a sequence fails the final contiguity assertion (`delete_middle_fails`); an entry cut at its beginning keeps its file offset (`delete_position_fails`).
* **C25** a just-created break allocation ends at its mapping's end, not at the break (`created_end_fails`); if the mapping reaches beyond the break's page, the first growth shrinks the mapping before the break allocation (`overlong_mapping_fails`); growth with a full array of file mappings stores past its end (`full_sequence_fails`).
* **C33** a family without a metavector, such as the string tables (the only family in the code base), never gets a base, size or type from a query (`query_no_metavector_fails`); large sizes are truncated (`query_big_fails`); padding is attributed to the element before it (`query_padding_fails`), and querying it can set a bit past the bitmap's end (`query_overrun_fails`).
* **C34** with a metavector every element is reported with the first one's record (`walk_metadata_fails`); with an upper bound the last element gets a size up to the end of the sequence (`walk_bounded_fails`); a range starting inside an element reports an element that does not exist (`walk_middle_fails`).
* **C39** pointers in arrays inside structs (`nested_array_fails`) and in objects that are plain pointers (`plain_pointer_fails`) are not followed; the address comparison is truncated to int (`far_objects_fails`); an all-ones word is visited (`all_ones_fails`); an address reached first with one type is never looked at with another (`two_types_fails`); a root reachable from another root is visited twice (`several_roots_fails`).
* **C40** a big allocation without a suballocator is a null dereference in every walk that reaches it (`no_suballocator_fails`); imposed children below the top level are never visited (`df_imposed_fails`).
* **C41** for a child the callback is given the containing big allocation (`kid_identity_fails`); children are listed newest first, and out of address order chunks are repeated and children missed (`kid_order_fails`); a child made by the suballocator hides all chunks before its end (`kid_not_imposed_fails`); with a range given, a child before it brings in chunks from before the range (`kid_before_range_fails`), a child after it hides the chunks inside (`kid_after_range_fails`), and a child starting where it ends is reported (`kid_at_range_end_fails`).
* **C42** memoisation uses the simple name, so the array of a second type of the same name is the first one's (`array_same_name_fails`); long names are clipped (`array_long_name_fails`); sizes wrap (`array_size_fails`); unbounded and flexible arrays share a name (`unbounded_flexible_fails`).
* **C55** as for arrays (`pointer_same_name_fails`).
* **C56** member names are concatenated without a separator (`union_concat_fails`); the running length is never advanced, so the buffer can overrun (`union_overrun_fails`).
* **C26** an object that fills a 256-byte bucket has its size stored as 0 and is not found (`full_bucket_object_fails`); scans of a full bucket run past the table (`full_bucket_fails`); objects with site 0 are not recorded (`no_site_fails`); the reported size is that within the first bucket or not set (`size_fails`).
* **C57** when an object is allocated over one that fills a 256-byte bucket, or over one from an unknown site, the rest of the old one stays in the index and is found to be of the new one (`realloc_over_fails`).
* **C48** a caller that uses the frame-pointer register for something else makes the walk pass over the right frame (`frame_pointer_fails`); descriptions have no end, so a function without one gets its predecessor's (`undescribed_function_fails`); a return address at the end of a function is attributed to the next (`return_address_fails`).
* **C49** the address one past an object is attributed to it (`past_end_fails`); the reported size of a relocation target has its address added (`reloc_size_fails`); a symbol inside another hides the rest of the outer one (`nested_symbol_fails`); a lookup without a big allocation (used for names) indexes the wrong table (`no_bigalloc_fails`).
* **C02** the library accepts a big allocation over an existing small one as its sibling (`overlap_accepted_fails`), truncation past a child (`truncEnd_child_fails`) and a split through a child (`split_child_fails`); lookups in the overlap then give an allocation that is not the innermost, or nothing.
* **C03** the same three histories leave siblings that overlap or a child outside its parent.
* **C04** an allocation may grow beyond the size limit, and then its deletion aborts (`delete_grown_fails`).
* **C05** growth of an allocation that begins after the start of its end's page takes that whole page (`extend_page_fails`); truncation gives the boundary page to the parent even if the parent does not cover it (`truncEnd_page_fails`, `truncBegin_page_fails`).
* **C08** with no mapping beginning below the address, the query at or above finds nothing although there are mappings above (`mapping_at_or_above_fails`).
* **C09** the recursion decrements both depths while moving one, so cousins have no common parent (`common_parent_fails`).
* **C60** with a range that begins inside a page, a mapping beginning later in the range can be missed (`delete_range_fails`).
* **C64** legitimate fixed mappings do not complete (`mmap_fixed_fails`): a mapping of another file inside a known sequence creates a second big allocation over the first; one that runs past the end of a sequence fails an assertion; one at the start of a sequence or from the end of one over the start of another is laid over it.
* **C65** the new size is not rounded to pages, so `mremap(p, 8192, 4097)` makes the record lose mapped memory, also beyond the range (`mremap_unrounded_fails`); a move that grows records the added pages with the attributes of the unused entry after the last (`mremap_move_grow_fails`); a move that shrinks records the old size (`mremap_move_shrink_fails`); a move onto a known mapping aborts (`mremap_onto_fails`).
* **C66** more of the same file is recorded after nameless memory that ends its sequence, and a file laid over the start of a nameless sequence leaves file contents in a sequence with no name (`join_tidy_fails`): the comment at src/allocators/mmap.c:1263 says the former cannot happen.
* **C67** the distance below the beginning of the stack is compared with the whole size limit, not with what remains of it, so a stack is taken to have grown beyond its limit (`beyond_limit_fails`).
* **C68** a SIGBUS elsewhere removes the handler for good; if the action that was there before lets the program go on, the first touch of another piece ends it (`other_fault_fails`). The handler is right only because the region begins and ends on piece boundaries (`unaligned_begin_fails`, `unaligned_end_fails`): the end it computes is not used.
* **C69** `mremap_replacement` passes its own return address, which is in the library, to the placement policy, so every `mremap` of a program without `MREMAP_FIXED` is taken for one of the library's, given a place and `MREMAP_FIXED` (`mremap_placed_fails`): resizing in place is refused by the kernel, and with `MREMAP_MAYMOVE` the mapping always moves.
* **C70** `mprotect_replacement` is never put into the table, so changes of protection are not notified (`mprotect_fails`; its notification is an empty function besides). A trapped mapping of over four gigabytes is notified, though big allocations of that size cannot be made and end the program, while the library's `mmap` leaves it out (`big_mapping_fails`).
* **C71** after a failure `errno` is set a second time, from the -1 that is returned, so it is always EPERM (`errno_fails`).
* **C72** the counter is advanced by the length as it is, so places are unaligned after a length that is not whole pages (`own_unaligned_fails`); a file opened only for writing gets access mode 3 (`dlbind_wronly_fails`).
* **C73** `sigaction` on SIGILL succeeds without doing anything, so a program is not told (`sigaction_ignored_fails`); the handler by which the page index grows is not kept (`index_handler_fails`).
* **C74** the size of a member is never looked at, so an address in padding is said to be in the member before (`inner_padding_fails`) and only the first member of a union is entered (`inner_union_fails`); the offset is kept in 32 bits (`inner_big_fails`); an allocation without a type, which is what `get_info` of the mmap and brk allocators gives, dereferences NULL (`inner_untyped_fails`).
* **C75** `__liballocs_get_alloc_type_with_fill` stores the allocator before it knows whether the query succeeds, but the number only after: after a failed query the cache pairs the old number with the new allocator (`cached_error_fails`). Children smaller than a page (`cached_subpage_fails`, as a comment in the code concedes) and reuse of numbers (`cached_reuse_fails`) are not noticed. On a hit the cached allocator's `get_type` is called, but the allocators of the malloc family have none (`tools/stubgen.h:458-465`), so the second query of such an object calls NULL (`cached_crash_fails`), and the default `get_type` of the static allocators passes no big allocation on. The base macro at `include/liballocs.h:712` uses `generic_bitmap_get_base`, which is defined nowhere.
* **C76** wrappers are not unwound: after a longjmp out of a declared function every later allocation of the thread is attributed to it (`jump_site_fails`), and after one out of a freeing function the thread is marked as freeing for ever (`jump_freeing_fails`). A preset site is not cleared by an allocation outside declared functions (`preset_reused`).
* **C77** the size is noted only by the outermost declared function, so a nested suballocation is recorded with the outer function's size (`nested_size_fails`), and so is a chunk reallocated in one (`nested_resize_fails`); a function declared to keep its size leaves it for later reallocations (`stale_size_fails`).
* **C78** an activation of 64 KiB or more ends the walk (`big_frame_fails`). The distance of a saved frame pointer is compared as a signed number, so a negative value in the register (code without frame pointers) passes for one, and the walk faults (`negative_pointer_fails`); one that is not aligned fails an assertion (`misaligned_pointer_fails`). The check against wild steps compares the new stack pointer with itself, so it does nothing but refuse every step on a stack below 256 MiB (`low_stack_fails`).
* **C79** long paths are cut without notice, so different files have one name (`long_path_fails`); a metadata directory of 4044 characters or more makes the name by build ID run over its buffer (`long_base_fails`, exactly then: `byBuildId_overrun_iff`); if the file has been removed, uninitialised memory decides whether its metadata is current (`base_gone_fails`).
* **C80** copies of one binary have the same build ID and so one metadata object, which is released on the first unload while the other file uses it, and released again on the second (`shared_fails`); unloading a file without metadata passes NULL to `dlclose` (`no_meta_fails`).
* **C81** symbol names carry an eight-digit hexadecimal code after the prefix; one that begins with a decimal digit (10 of 16) is read as a length and another symbol is looked up, an assertion fails or memory past the name is read (`typeSym_fails`); names of the form the number is meant for lose too little (`header_fails`).
* **C82** the addresses of a `.tbss` section are those of the sections after it, which therefore get no big allocation of their own (`tbss_fails`). The file's big allocation begins where the mapping does, so a second file in one mapping aborts the program or, without assertions, overlaps the first (`second_file_aborts_fails`, `second_file_overlaps_fails`). A file in two mappings that abut aborts, since only a hole is expected between them (`abut_fails`).
* **C83** Files are unloaded by name (src/allocators/static-file.c:563, with a FIXME): of two loaded files of the same name, as when a library is loaded again in another namespace, unloading one makes the other unknown too (same_name_fails).
* **C85** `tools/metavector.cpp:380,388` numbers extra symbols from 2, but `tools/extrasyms.cpp:106,165` emits them from 1 unless the external `get_extrasyms` returns two leading dummies; the length computed in `add_sane_reloc_intervals` (including the section end said to bound it) is never used, so a last place extends to the next record of another segment
* **C86** `tools/metavector.cpp:281` keeps the address in a signed 32-bit integer, so places from 2 GiB on are lost; PC-relative types other than PC32, PLT32 and GOTPCREL, and instructions with an immediate after the relocated field, are recorded too low
* **C87** `src/uniqtype-util.c:213-218` joins argument names with `__ARGn_`, so a type whose own name contains that is confused with a longer argument list (`function_name_fails`); the remaining buffer size is computed without regard to what did not fit, so more than 4073 bytes of arguments overrun the buffer (`function_overrun_iff`), which 582 arguments of any types do (`function_overrun_fails`)
* **C88** `src/uniqtype-util.c:286` passes the length as `unsigned`, so ranges of 4 GiB or more get a length cut to 32 bits (`precise_wrap_fails`); between 2^31 - 1 and 2^32 elements an assertion fails (`precise_big_fails`)
* **C89** a type larger than the block makes an array of size 0, for which the union request fails an assertion (`addType_large_fails`); a type of size 0 is divided by before the check that would return 3 (`addType_void_fails`); adding a type twice nests unions (`addType_again_fails`)
* **C90** `src/query.c:121` passes the queried address to `make_precise`, which takes it for the array's beginning (`src/uniqtype-util.c:276`), but the offset descended with counts from the allocation's beginning: from the middle of the allocation on the array seems too short and the answer is an array type (`flex_inner_fails`)
* **C93** `src/allocators/mmap.c:293` compares entries but not file names, so another file mapped where one was, with the same offset and rights, keeps the old name (`scan_file_fails`)
* **C94** a line whose name begins with neither `/` nor `[` is said to be skipped (`src/allocators/mmap.c:1442`), but the caller takes the result for a sequence break and aborts when it repeats (`odd_line_fails`); extending a single-entry sequence downwards does not set the new end, which only differs in this case, so the sanity check always fails (`src/allocators/mmap.c:249-251`, `preextend_fails`, `scan_preextend_fails`); a sequence across two known ones aborts (`scan_across_fails`); adjacent anonymous mappings each below 4 GiB may be one sequence above it, which aborts (`scan_huge_fails`)
* **C95** a ninth line begins a new bigalloc (`one_file_fails`)
* **C96** the load address is computed from the address of the `PT_PHDR` header itself instead of the table's, so it is too high by 56 bytes for each header before it (`load_fails`); without such a header it is taken to be 0; segments that share a page end the program, the hole's size being negative (`shared_page_fails`)
* **C97** base and size of the stack outside frames are uninitialised variables (`stack_garbage_fails`: the query returns `unrecognised_alloc_site`, which the callers take for "base and size known", `src/query.c:28-110`, `src/allocators/stack.c:82-87`); so is the size of a small object found by a continuation (`size_garbage_iff`), and the type of a linker chunk with an allocation site (`type_garbage_iff`); the type of a linker chunk with a type is the chunk word's address (`linear_type_fails`, `src/allocators/ld-so-malloc.c:105`); the site of the library's own pools dereferences NULL (`crash_iff`)
* **C98** with NDEBUG the first query for type or site replaces the site in the chunk's word by its type, so a second `get_alloc_site` returns NULL (`site_lost_fails`, `include/generic_malloc_index.h:734-841`)
* **C99** other allocators have no `set_type` and the call does nothing (`set_silent_fails`); the linker's malloc aborts, and so does a debugging build where malloc knows no chunk (`set_ends_fails`); the site is lost although its number is kept (`set_site_fails`)
* **C100** chunks of at most 256 bytes end the program: the pitch is computed as 0 (`small_chunk_fails`); so do chunks of more than 2^21 times the first object's size (`large_chunk_fails`); a chunk above 2 GiB whose first object has one byte gets a table with no buckets, as an `unsigned` wraps (`huge_chunk_fails`, `src/allocators/generic_small.c:189-247`)
* **C102** `free(NULL)` ends the program (`free_null_fails`, `src/allocators/ld-so-malloc.c:72-78`); a chunk in a mapping that has grown since its arena was made ends the program or makes an overlapping arena (`grown_fails`); with two files in a mapping the arena may miss the chunk or cover the other file (`between_fails`, `swallow_fails`); in an anonymous mapping it covers whatever else is there (`anon_fails`); `__ld_so_brk_bigalloc` is shadowed by local variables, so `brk_get_info` always aborts
* **C104** the call of the decoder is commented out (`allocsld/allocinstr.c:75`), so no function is ever detoured: a null pointer is subtracted from and uninitialised fields are used (`stub_fails`); a detour two gigabytes away is missed, as a comment there admits (`far_fails`); a function found twice calls itself for ever (`twice_fails`)
* **C106** a taken branch goes on after the instruction that it should go to, because `gobble_nbytes<n, Seq>::tail` is the tail of what was sought (`tools/dwarf-machine.hpp:205-215, 461`, `branch_fails`); the self-test does not notice; the unused run-time dispatch takes a byte offset for an instruction count (`runTime_fails`)
* **C107** of two functions of one name, file and directory only the first is described (`twin_fails`, `tools/frametypes.cpp:262-279`); entries after a base address selection are displaced by the unit's base (`base_fails`); expressions with equal hashes are confused (`hash_fails`); a function of a megabyte stops the tool (`big_fails`)
* **C108** the table has no ends: after an interval, up to the next, its description is still found (`gap_fails`, `tools/frametypes.cpp:1106-1123`)
* **C109** the size is where the variable that begins last ends, so others may stick out (`overlap_fails`, `tools/frametypes.cpp:846-876`); offsets and sizes are cut to 32 bits (`wrap_fails`)
* **C110** six assignments suffice for the tool to run for ever (`diverges_fails`, `tools/lang/c/dumpallocs/dumpallocs.ml:588-597`)
* **C111** the analysis ignores order (`flow_fails`), results of calls (`call_fails`), fields (`part_fails`) and padding (`padding_fails`); a size divided away stays if the divisor is known too late (`stale_fails`); whether an array is possible is taken from one side of a sum (`flag_fails`); the last member of an inner structure counts as trailing (`trailing_fails`)
* **C113** `calloc` with its arguments the other way round is not understood (`calloc_fails`); any indirect call with a size in the right place is said to allocate (`indirect_fails`); a signature without brackets stops the tool (`bracket_fails`, `tools/lang/c/dumpallocs/dumpallocs.ml:436-451`)
* **C114** the caller empties the list of labels before grouping (`tools/lang/c/dumpallocs/dumpallocs.ml:732`), so that a statement always stays one group without attributes (`regroup_fails`)
* **C115** tags with two underscores clash with constructed types (`tag_fails`, `args_fails`); `long` and `long long`, `char` and `signed char`, `f()` and `f(void)`, a structure and an enumeration of one name share a name (`same_fails`)
* **C116** the class in the regular expression also excludes the backslash, which is not escaped (`backslash_fails`, `tools/lang/c/cilallocs/cilallocs.ml:241`)
* **C117** dimensions are always lost, since the base case of the accumulation has none (`collapse_fails`, `tools/lang/c/cilallocs/cilallocs.ml:383-391`); a pointer to an array of generic pointers counts as generic (`generic_fails`)
* **C118** a reference callback that answers -1 does not stop the walk, though the comment says that anything but zero does (`stop_fails`, `src/walk.c:349`)
* **C119** the zero-length array of `char` is looked up as `…$$8` and bound without it (`arr0_fails`, `src/rt-uniqtypes.c:199-203`); `intptr_t` is not made (`intptr_fails`, 210-214)
* **C120** both members of `Elf64_auxv_t` are at offset 0 (`auxv_fails`, `src/rt-uniqtypes.c:188-197`); the pointer types have no room for the ultimate pointee, which `__liballocs_get_or_create_address_type` reads (`ultimate_fails`, `src/uniqtype-util.c:162-173`)
* **C121** two allocations on one line get one type (`two_on_line_fails`); source records are sorted in the user's locale but compared as bytes, which may miss matches (`other_order_fails`, `tools/gather-srcallocs.sh:88`); names with spaces are not read back (`space_in_name_fails`); line numbers are compared as text (`pad_order_fails`)
* **C122** a last call is lost (`last_fails`) or gets the next section's address (`section_end_fails`); source text may be taken for something else (`constructor_fails`, `dots_fails`); the range of lines begins where objdump's source text ends, so that later lines' records may match (`window_fails`, `tools/objdumpmeta.awk:169`)
* **C124** a query from a hook during `__liballocs_global_init` fails an assertion (`query_fails`, `src/init.c:66-67`, `include/liballocs.h:237-239`); the test of `trying_to_initialize` after it is never reached; the library may say that it is initialised before mappings are known (`too_early_fails`) or files (`order_fails`)
* **C126** a local symbol is never made global: the pair stored for `file::sym` is the whole match and the file, not file and symbol (`local_fails`, `tools/gold-plugin.cpp:522`); the command that would do it runs the names of its input and output together (`objcopy_fails`, 120)
* **C127** a plugin named in two arguments gets options between them (`separate_fails`); the plugin there and two symbols missing uses an invalid iterator (`iterator_fails`, `tools/gold-plugin.cpp:683-688`); `-rpath-link` counts as `-rpath` (`rpath_link_fails`, 702); a directory that does not exist is added again and again (`no_dir_fails`); a dynamic linker given as `-I…` loses the next argument (`joined_fails`, 768-815)
* **C128** types that differ only in their codes have one name (`display_same_fails`); a symbol `__uniqtype_` with a shorter code makes the name a pointer past the end (`display_short_fails`, `src/uniqtype-util.c:415`)
* **C129** a type with two symbols is visited twice (`twice_fails`); a data symbol without a name is compared through a null pointer (`unnamed_fails`, `src/meta-dso-util.c:244-247`); an object loaded at 0 is passed over (`exec_fails`)
* **C130** objects under the metadata directory are not recognised, since the names are compared as a whole (`below_base_fails`, `src/meta-dso-util.c:81`); a name shorter than eight characters makes the check read before it (`short_fails`, 85), though the answer is never wrong (`skipped_exact`)
* **C131** negative numbers come out as other characters (`decint_fails`, `src/preload.c:337-346`); process numbers of six or seven digits lose the first ones at start-up (`pid_fails`, `src/pageindex.c:411-415`)
* **C132** a bounded copy that cuts the string has no end mark and one character too many (`strndup_fails`, `src/private-libc.c:20-23`); the one caller passes the string's length
* **C133** a later call lowers the beginning by a bare assignment (`again_begin_fails`, `lowered_fails`, `src/allocators/auxv.c:123`) and raises the end beyond the parent's (`again_end_fails`, `again_end_unreachable`, `raised_fails`, 143); any mapping whose name begins with `[stack` brings this about (`src/allocators/mmap.c:365-368`)
* **C134** announcing an object in a raw mapping aborts, since the mapping allocator's `get_info` is called without a big allocation (`unknown_aborts`, `src/allocators/generic_small.c:471`, `src/allocators/mmap.c:1584`); so does announcing one in a heap chunk of 256 bytes or less (`small_chunk_fails`)
* **C135** what follows the first 512 KiB of the list is ignored without an error (`long_list_fails`, `src/systrap.c:321`), as is everything after a failed read (`read_error_fails`, 323)
* **C136** The distance searched is computed as the lower page number minus the higher, unsigned, so that it exceeds the limit of 128 after one step (src/pageindex.c:1147): an address two pages or more above the mapping is never found (far_fails). And the byte tested is the last one of the page below (1153-1154), so that nothing is found if the break was within a page (unaligned_fails).
* **C137** When the frame pointer of a frame cannot be read, the variable keeps that of the frame below, and the callback is given it (include/liballocs.h:800-803, stale_bp_fails). -1 is returned both for a failed step and for a callback's -1 (failure_ambiguous_fails).
* **C138** The last page is recognised by rounding up to 0 (src/pageindex.c:629), which its first address does not do: that one is reported (last_page_fails).
* **C139** A file that is not an early one has its segments set up while its meta object is not yet loaded (src/allocators/static-file.c:477, 493), and only early files have that done again (251-263): no segment of such a file ever has a table, so that no static object in it is found (late_fails). And the name is made from the low 32 bits of the address (src/allocators/static-segment.c:59), while the tool uses all 64 (large_fails).
* **C140** Temporary objects are kept under the source's name without its directory (tools/compilerwrapper.py:43-51, 618), so that one of two is linked twice (same_name_fails). Options are the keys of a dictionary (239-248), so that of repeated ones the first place counts and the last may not win (repeat_fails, repeat_opt_fails, xlinker_fails), and the place of linker options among the archives is lost (position_fails). `-D FOO` and `-L dir` are torn apart (split_define_fails; split_dir_fails, tools/allocscompilerwrapper.py:679). Warnings such as -Wlogical-op are taken for linker options (warning_fails, tools/compilerwrapper.py:390). `--version` runs nothing (version_fails); a shared library without a name, and `--`, raise exceptions (shared_fails, endopts_fails).
* **C141** The word after -MD, -MMD, -MG, -MP, -M or -MM is skipped (tools/compilerwrapper.py:377-379): it may be -c, or -MF (depfile_fails, depfile_name_fails). The language that -x asks for is replaced by that of the file's name (276-285, language_fails), and where there is none an exception is raised (stdin_language_fails); `-` is lost altogether (stdin_fails). -Wall is taken for an assembler option and lost with -S and -E (400, warning_stop_fails).
* **C142** A function declared in LIBALLOCS_ALLOCSZ_FNS makes every link fail, since the macro written for it, make_size_caller_wrapper, is not defined: the one in tools/stubgen.h:301 is called make_caller_sz_wrapper (sz_never, tools/allocscompilerwrapper.py:409). A function that allocates one object of a type raises NameError at passedThroughArgs (unsized_fails, 393-395). Declaring again what the language has, two marked arguments, and a suballocator's free function without its allocation function fail too (again_fails, marks_fail, arrow_fails). An undefined weak reference to malloc counts as a definition (weak_fails, 134). For calloc the size of one element is noted (calloc_fails, tools/lang/c/lib/allocscc.py:33).
* **C143** The tool defines `extrasyms`, as allocsld expects (allocsld/allocinstr.c:231), but liballocs looks for `extrasym` (src/allocators/static-file.c:233): it has no such table for any file, and a query that meets a record for such an object reads through a null pointer (never_loaded, query_fails). A name with two quotes in it, as of a C++ literal operator, is read as two literals, so that all later names are cut (quote_fails, tools/extrasyms.cpp:173-174); with one quote the source is not accepted at all (one_quote_fails), and a backslash is taken together with what follows (backslash_fails).
* **C144** Twelve bytes of instructions are stored over a function of one byte, as the comment there says (allocsld/chain.c:215-221): whatever follows within twelve bytes is overwritten (near_fails). Only the page of the function's first byte is made writable (224-225), so that the copy faults at the end of a page (page_fails). The symbol `_r_debug` is read without a check though its address is never used, so that linkers without it crash (206, no_r_debug_fails).
* **C145** Only calls of `alloca` and `__builtin_alloca` with one argument are changed (tools/lang/c/monalloca/monalloca.ml:109-117): what `__builtin_alloca_with_align` gives is not indexed (aligned_fails). Chunks of 32 MiB, which are possible with large stacks, abort the program (large_aborts, src/allocators/alloca.c:254).
* **C147** `getConcreteType` takes arrays for their elements, so that `(int *) p` with `int (*p)[10]` becomes `p`, and `(int *) p + 1` is 36 bytes further on (cast_fails, tools/lang/c/cilallocs/cilallocs.ml:441-444). The casts that are made for arrays (466) are left out when the result is simplified again (twice_fails). `(&(&v.f)->g)->h` becomes `(&v.f)->g.h` only (member_fails).
* **C148** After a failed realloc the chunk is indexed again with the failed call's site (include/generic_malloc_index.h:561-570), so that the object's type changes though nothing was done to it (failed_realloc_fails). The type given to a large object is written at the end of the chunk but read after the size asked for, where there may be anything (large_setType_fails, 679-685 and 720-731). With NDEBUG the first query of an object replaces its site (site_twice_fails, 799-804).
* **C149** Calls of which no type is known are left out of the table (tools/allocsites.cpp:87), but the look-up takes the last entry that is not after the address, without comparing it (src/allocsites.c:113-119). Their objects are said to have the type of some other call, before them in the file (unknown_fails).
* **C150** A file that is not one of the early ones is never given its tables (src/allocators/static-file.c:413-519): every static object of it is unknown (late_fails). For an address of a segment in no section the whole segment is reported, and its site is read from the wrong place, 48 bytes too early, because the file's record is cast to the type of the part inside it (src/allocators/static-segment.c:179-181, uncovered_fails).
* **C151** Where nothing is live nothing is written (tools/frametypes2.cpp:952-953 says so), so that the layout before the gap is still in force in it (gap_fails). With --include-incomplete a variable without a type is an assertion failure (tools/frametypes2.cpp:706, untyped_aborts).
* **C154** sed replaces the first dot followed by c or i, wherever it is (tools/lang/c/bin/c-gather-srcallocs:57-63): for /home/u/.config/m.c it looks for /home/u/.i.allocsonfig/m.c (path_fails).
* **C155** Records have the line of a call and not its place in the line: if a line allocates objects of two types, both types are recorded, and every call instruction of the line is given the first of them (line_fails).
* **C156** the plugin compares the number of options with 5 but needs 6, so that five end in an exception (`five_fails`); names with blanks pass the check but are torn (`blank_fails`); `w` is the macro's own parameter (`w_fails`); a local symbol's file cannot have a dot in its name (`file_fails`)
* **C157** any declared free function stops the link, because the script leaves out the separator that the plugin's check asks for (`free_fails`); so does a suballocator's, unless its allocator's name is one letter (`subfree_fails`), a function without arguments (`noargs_fails`) and the documented form of type overrides (`override_fails`); functions that the inputs use but do not define are not wrapped (`case_flags`: malloc)
* **C158** A name such as x__uniqtype_0123abcd_foo is listed as well (the pattern is not bound to the start of the line), and the option becomes x--redefine-sym (prefixed_fails).
* **C159** The text after a component starts with the component's last character (tail -c+n, tools/lang/c++/bin/link-used-types:35-39), so that a name that ends in a digit 1 to 9 is taken to have a length there and gets the name of a class E inside it (digit_fails). Only the first separator is replaced (59), so that names of three components have a form feed in them (deep_fails). Letters before the name are skipped: pointers and constants get the class's name (pointer_fails), and an object that refers to both cannot be linked (pointer_and_class_fail). All built-in types get the empty name (builtin_fails).
* **C160** The description before a gap is used in it, as if it were of the code there. If the function it is of had a parameter on the stack, a variable of the caller is taken for it (gap_query_fails).
* **C161** A declaration may have its result as `->p`, and the linker plugin's check (tools/gold-plugin.cpp) accepts this, but the pattern of tools/objdumpallocs:80 does not: no call of that function is found, nor of the next one (arrow_fails). A blank before the first declaration loses the calls of its function (blank_fails). The comment at 62 says that no lines give an expression that matches nothing; it matches everything (no_names_fails). malloc_stats is taken for malloc (prefix_fails).
* **C162** Copying a linked file to its place with a new time makes its metadata count as out of date, by build ID too (install_fails): the comment at tools/Makefile.meta:146-162 has just this installing in mind. Metadata by name is not compared with the file (stale_fails). The plugin does not quote the name (blank_fails) and ignores META_BASE (base_fails). Shorter build IDs are read as 20 bytes (short_fails). ensure_mirror_dir_for_target only prints the commands that would make links (mirror_fails).
* **C163** The check of a big allocation begins with the second child (src/pageindex.c:157), so that the one made last is not looked at: truncation away from it passes all checks, and a later check of the child itself fails (first_child_fails). Overlapping siblings pass (overlap_checked_fails). The top-level list is followed both ways but the ways are not compared, nor are the slots met required to be top-level (top_check_fails).
* **C164** The library's own queries, and lookups of names, are counted as the program's (counters_fails). In an optimised build a query of the library's own erases the site of an object without a type, so that the program's later query fails without its site being listed (sites_fails). generic_small counts failures but not queries, so that failures met there alone are never printed (summary_fails); `alloca` objects without a type are printed as unknown heap sites (summary_case).
* **C165** get_stream_err (src/err.c:12-28) opens the file anew, emptying it, for every message, and never closes it: of two messages or more the file never holds all (file_never, exit_file_never for the summary, file_fails), and each takes a descriptor (descriptors_never). If the file cannot be opened, the message about that calls get_stream_err again, without end (unopenable_never, unopenable_fails).
* **C166** alloca_arena_for_userptr (src/allocators/alloca.c:35-38) reads the size from below the address asked for, not from below the object, so that in a build with assertions a query for an inner address aborts if the program's data there is big (interior_aborts). An object of more than 131072 bytes aborts or is not found (large_fails), and one of no bytes aborts (zero_aborts). A local variable of a function that has called alloca is reported as an object made by alloca (locals_fails). After longjmp dead objects are still found, and a later alloca may abort (jump_fails). The size reported is 16 less than the room, so that an object of 8 bytes is of size 0 (size_fails).
* **C167** linear_malloc_index_insert stores only the site's bits of the word behind a chunk (allocsld/allocinstr.c:448). A chunk made smaller in place has old data there: then a type is reported, and it is made from the word's address instead of its contents (src/allocators/ld-so-malloc.c:106; shrink_fails). The size after realloc is rounded up to eight (size_fails). With lifetime policies, insert_for_chunk takes eight off a size that does not include the word, so that the flag goes into the object's last bytes: memory from calloc is not clear (policy_never), and an object whose last bytes were written may not be freed (policy_fails).
* **C168** The map from intervals to layouts keeps no empty layout and joins neighbours that are equal, which the assertions (tools/frametypes2.cpp:636-637, 666-667) do not allow for. So the tool stops where something is live and nothing is on the stack (no_place_aborts), and where from one address to the next something changes but not what is on the stack (same_aborts, comes_aborts); also for a subprogram that is not listed (unlisted_aborts). Code that two subprograms share is not described (shared_fails). Records are found by their beginning, so that the one before a gap is found in the gap (gap_fails). The type ends where the variable that begins last ends, and one that begins earlier may stick out (536-541 says so; size_fails).
* **C169** An assertion against types that contain themselves (tools/alloctypes.cpp:93-97) compares a member's concrete type with the place of the member's type's entry, not with the type that has the member. So a structure with a member whose type is named by a typedef inside the class that it stands for (`struct B { typedef B self; int x; }; struct C { B::self b; };`) stops the tool (self_aborts, case_aborts).
* **C170** The places of saved registers are entered for the whole of an FDE, not for the row that says so (tools/dumpptrs.cpp:913-919, 931-937): at a function's first instruction rbp is said to be on the stack already (entry_fails). Variables and registers at the same place are not ordered, so that a set takes only the first (shared_fails), and comparing them reads an uninitialised member (junk_fails). Variables with their type from an abstract origin are not taken for pointers (origin_fails). Offsets from a frame base other than the CFA are written as offsets from the CFA (base_fails). Of subprograms with the same name, file and directory only the first is written (twin_fails). An FDE that begins outside any subprogram is passed over (before_fails). A brace of a message goes to the output (brace_fails). Base address selections, intervals of a megabyte and units without a base address stop the tool (stops_aborts).
* **C171** A line is taken for an address if it begins as a hexadecimal number does, without looking at what follows (tools/ifacetypes.cpp:79-82). So no name that begins with one of the letters a to f is ever looked for (hexname_never): asked for `free`, the tool answers for what is at address 15 (free_fails). A name that makes too great a number asks for everything (great_fails), an empty line for nothing (blank_fails), and a line that is too long ends the reading (long_fails). Of two static functions of the same name only the later has a pointer (twin_fails); a name that is not a C identifier is written as it is (operator_fails).
* **C172** A link by a relative path of more than one name: links on that path are not listed (hidden_fails), or, if it ends at a link, the script gives up (hop_aborts; the comment at tools/dump-symlinks.sh:46-48 says so). It gives up too at a link to the root (root_aborts). If links lead in a circle it does not end (circle_never, circle_fails).
* **C173** The first line of the picture is indented by what is left of its 256 bytes, not by what comes before (tools/metavector.cpp:575-583), so that its digits are under the wrong offsets if the bitmap starts 64 or 192 bytes into them (indent_fails, case_indent). Addresses of more than eight digits move the digits to the right (wide_fails). The digits are counted in 32 bits and the count compared with the segment's size (tools/metavector.cpp:585, 606): for 4 GB or more the tool stops (great_aborts). The pictures are comments: the words are right all the same.
* **C174** The location is set after an instruction's parts have been visited (tools/lang/c/dumpmemacc/dumpmemacc.ml:118-133), so that all reads have the location of the instruction before (read_location), and those of the first none (first_never). A call is listed as a read of the function (call_fails), and the operand of sizeof as read though it is not evaluated (sizeof_fails). An assigned result of an operator has two lines (twice_fails).
* **C175** All that is not named by -l or as a shared library is linked first (tools/allocscompilerwrapper.py:675-682), so an archive that is named after a library which uses it is of no use to it, and the build fails (late_fails); an archive's definition is preferred to that of a shared library named before it (taken_fails); libraries named before the objects that use them serve these (early_fails). A shared library whose name does not end in .so and numbers makes the first link fail (name_fails).
* **C176** The call that removes the relocation records, which are kept for making metadata, is commented out (tools/allocscompilerwrapper.py:199), so they stay in every output (relocs_never). The status of usedtypes is not looked at (704; used_fails). A shared library with LIBALLOCS_USE_PRELOAD=no cannot be built, as getLdLibBase is called as a function (561; shared_aborts).
* **C177** The callback does not look at whether a symbol is defined (an undefined one has the file's header overwritten), and does not remember what it has done: a function that is in both tables of symbols is detoured twice, and its detour then calls itself without end. The limit of the trampolines' page is handed on and never looked at.
* **C178** The dynamic linker is added to every link, also to one whose output is relocatable, which the linker cannot do (rel_never). Without a relocatable input, usedtypes is run without arguments, which it refuses, and the link is aborted (none_aborts). If LIBALLOCS is not set, the padding is sought in the current directory (unset_fails).
* **C179** On an unlimited stack, a chunk of alloca more than 80 KB below the top is asked of malloc once its frame has a big allocation of its own, as every frame that calls alloca is given (frame_fails; src/preload.c:145 compares with the stack allocator only), or while the index has nothing there (unclaimed_fails). So is a chunk on another thread's stack (thread_fails). A chunk of malloc within the stack limit below the stack's top is taken for one of alloca, whatever the index says (wide_fails). While the page index is null the function faults (early_fails), though __liballocs_get_allocator_upper_bound would make it.
* **C180** The library is known by the name liballocs_preload.so alone: under another name, such as that of a symbolic link, it is not known when it is ahead (renamed_never, name_fails), and another file of that name is taken for it (other_fails; the comment at src/ifunc.c:35-37 has doubts about this). The kernel's object is passed over under one of its names only (kernel_fails). A process of which nothing but the executable is in the link map is ended (alone_aborts).
* **C181** Of chunks in big allocations the links give neither type nor name (chunk_never; the comment at include/allocmeta.h:259-262 says so). The name of a member of a type without names is asked for all the same, a fault (nameless_fails). Coordinates start at 1, and of 0 the entry before the first is asked for (zero_fails).
* **C182** The record of a file starts with liballocs's own fields (include/allocmeta.h:490-506), but static-section.c:89 and 97 take it for librunt's struct file_metadata, which is 48 bytes further on. So whatever librunt's layout is, the site said of a section does not depend on the site that loaded the file (site_never; it is the word of site_run), and the search in a file reads the addresses of the headers from the wrong words: if the word in place of the ELF header's address is NULL, as liballocs's own fields are in a new record, it faults (search_never). Asked about an address under no file, the loop at static-section.c:96 goes above the top and faults (outside_file_faults).
* **C183** A symbol's name of 8 KB, which C++ can have, leaves no room for the offset (long_never). Without a symbol the offset is (nil) wherever the address is in the file (unknown_never). The file is given without its directory (directory_fails). A call is taken to be of five bytes (src/liballocs_private.h:247 has a FIXME), so an indirect call at the start of a function is said to be in the function before it (indirect_fails).
* **C184** For a chunk inside another chunk of the same allocator, the outer one's metadata are given (nested_fails), since the walk is from the root; for allocations that are not big there are none. The second output, the type of the metadata, is never written (src/query.c:233 has a FIXME). The name of a string is read from the address that is asked about and not from the string's start (inside_never), and asking outside a packed sequence ends the program (outside_aborts).
* **C185** A unit that has no directory is left out, even if its files' names are absolute (nodir_never). If the directory is not absolute, as compilers' options for reproducible builds make it, the path depends on where one is (relative_fails), and if it is empty, relative names are taken from the root (emptydir_never, tools/cufiles.cpp:72).
* **C186** A line of 4095 characters or more ends the reading of the list without a word (long_never), and a line of too few fields names the empty symbol (short_never), as only the stream's bad state is looked at (tools/noopgen.cpp:117). Aliases are left out (alias_never; tools/noopgen.cpp:158 has a FIXME). The functions that are declared have the entry's name, and those that are returned the symbol's (renamed_never). A function of C has no linkage name in debugging information, and with dwarfpp giving just this attribute an assertion fails for it (nolinkage_aborts). The test for external declarations looks at the declaration attribute twice (tools/noopgen.cpp:177-179), so declarations that say they are not external are left out too. The comment that an empty list means every subprogram (tools/noopgen.cpp:170) is not what the code does. The use of the map's operator on a constant map (tools/noopgen.cpp:260) may not compile.
* **C187** The first line of the tool's output is taken (tools/allocscompilerwrapper.py:403), so a function of the same name in another object that is linked before gives its size instead (static_fails). Only arguments that end in .o are looked at (tools/allocscompilerwrapper.py:393): for an allocation function in an archive or a shared object the link is given up (archive_never), with a message in the debugging output only.

## Trusted base

* Lean 4 kernel. Every property theorem depends on at most the standard axioms `propext`, `Classical.choice`, `Quot.sound` (checked with `#print axioms`); there is no axiom of our own, no `sorry`, no `native_decide`, no `bv_decide`.
* The reading of the C source: each definition cites the file and lines it models and states what it simplifies.
* One API call is one atomic step (the library holds a recursive big lock); concurrency inside it, signal handlers, the dynamic linker, system calls, librunt/libsystrap, the DWARF tools and code generation are not modelled.
* Addresses are natural numbers unless the property is about overflow, truncation or bit-fields; then they are `BitVec 64` or the truncation is explicit in the model.
* Aborts, failed assertions and undefined behaviour are a distinct outcome (`none` or a dedicated constructor), never silently totalised.
* External code absent from the checkout (contrib submodules) is modelled by its documented contract: the bitmap helpers of `bitmap.h`, `next_power_of_two_ge`, `integer_log2`, `is_power_of_two`, `bsearch_leq_generic` (greatest element at or below the target, or nothing), the `UNIQTYPE_*` macros, the constants of `vas.h` (page size 4096, huge page 2 MiB, user addresses below 2^47, largest allocation 4 GiB). librunt calls back once for every loadable segment, then once for every section, in table order; `dlopen` and `dlclose` count references. C library functions (`qsort`, `bsearch`, `memmove`, `wmemset`, `strncat`, `snprintf`, `sscanf`) are modelled by their standard contract.

