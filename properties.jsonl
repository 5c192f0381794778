{"id": "C01", "title": "Block masks are exact", "statement": "For every block type, `low_mask(k)` has exactly the `k` lowest bits set for every `k <= nbits()` (including 0 and nbits()), `nth_mask(i)` has exactly bit `i` set for every `i < nbits()`, and the generic default `low_mask` and the branch-free override used by u8/u16/u32/u64/usize return the same value.", "quantifier": "all block widths 8/16/32/64, all k <= nbits, debug and release builds, 32- and 64-bit targets", "why_tests_cant": "The override relies on a wrapping shift and a multiply trick whose only interesting case is k = nbits; tests sample three masks.", "anchors": ["src/storage.rs:BlockType::low_mask", "src/storage.rs:fn_low_mask!", "src/storage.rs:BlockType::nth_mask"]}
{"id": "C02", "title": "Single-bit read/write on a block", "statement": "`b.with_bit(i, v).get_bit(j)` is `v` when `j == i` and `b.get_bit(j)` otherwise, for all in-range i, j; both `get_bit` and `with_bit` panic exactly when the index is >= nbits().", "quantifier": "all blocks, indices and values, all widths and build modes", "why_tests_cant": "2^64 blocks times 64 indices; tests use one byte.", "anchors": ["src/storage.rs:BlockType::get_bit", "src/storage.rs:BlockType::with_bit"]}
{"id": "C03", "title": "Bit-field read/write on a block", "statement": "`b.get_bits(s, n)` is the n-bit integer whose bit j is bit s+j of b; `b.with_bits(s, n, v)` changes exactly bits s..s+n to the low n bits of v (higher bits of v are ignored) and leaves every other bit alone; both panic when s+n > nbits().", "quantifier": "all blocks, starts, lengths (including 0 and full width) and values, all widths and modes", "why_tests_cant": "Full-width and zero-width fields hit shift-overflow special cases; the domain is astronomically large.", "anchors": ["src/storage.rs:BlockType::get_bits", "src/storage.rs:BlockType::with_bits"]}
{"id": "C04", "title": "Integer logarithms are exact", "statement": "For every x >= 1, `floor_lg` returns the largest n with 2^n <= x and `ceil_lg` the smallest n with 2^n >= x; both return 0 for x <= 1 and never panic.", "quantifier": "all values of all block types, all modes", "why_tests_cant": "Exactness must hold at every power of two and its neighbours of every width.", "anchors": ["src/storage.rs:BlockType::floor_lg", "src/storage.rs:BlockType::ceil_lg"]}
{"id": "C05", "title": "Ceiling division is exact", "statement": "`x.ceil_div(d)` returns the smallest n with n*d >= x, for every x and every d > 0.", "quantifier": "all x, all d > 0 of every block type, both build modes", "why_tests_cant": "The intermediate sum can overflow; quickcheck almost never samples values near the type maximum.", "anchors": ["src/storage.rs:BlockType::ceil_div"]}
{"id": "C06", "title": "Bit addresses round-trip", "statement": "`Address::new(i).bit_index() == i`, with `bit_offset < nbits()`, for every bit index whose block index fits in usize; otherwise `Address::new` panics. Conversely building the address of (block, offset) from its bit index gives back the same pair.", "quantifier": "all u64 bit indices, all widths, 32- and 64-bit targets", "why_tests_cant": "The inverse law over 2^64 indices and the exact panic boundary on 32-bit targets.", "anchors": ["src/storage.rs:Address::new", "src/storage.rs:Address::bit_index"]}
{"id": "C07", "title": "Block size arithmetic is exact", "statement": "`div_nbits`, `mod_nbits`, `ceil_div_nbits`, `mul_nbits` and `last_block_bits` equal quotient, remainder, rounded-up quotient, product, and size of the last partial block; `lg_nbits` is the exact logarithm of the block size and `lg_nbits_mask` the block size minus one in any type that can hold it; `checked_div_nbits`/`checked_ceil_div_nbits` return Some of the exact value when it fits in usize and None otherwise.", "quantifier": "all u64 inputs, all widths, both pointer sizes, both build modes", "why_tests_cant": "The checked variants are the only guard against oversize vectors; the interesting inputs are at the very top of u64.", "anchors": ["src/storage.rs:BlockType::div_nbits", "src/storage.rs:BlockType::mod_nbits", "src/storage.rs:BlockType::ceil_div_nbits", "src/storage.rs:BlockType::mul_nbits", "src/storage.rs:BlockType::checked_ceil_div_nbits", "src/storage.rs:BlockType::last_block_bits"]}
{"id": "C08", "title": "Block I/O round-trips in both byte orders", "statement": "Writing a block with `write_block` and reading it back with `read_block` under the same byte order returns the same block and consumes exactly nbits()/8 bytes, leaving the rest; a source with fewer bytes yields an UnexpectedEof error; little- and big-endian encodings are byte reverses of each other.", "quantifier": "all blocks, all widths, both byte orders, all following bytes", "why_tests_cant": "No test covers block I/O at all.", "anchors": ["src/storage.rs:BlockType::read_block", "src/storage.rs:BlockType::write_block"]}
{"id": "C09", "title": "Multi-bit reads over block arrays", "statement": "On any block array (`[Block]`, `Vec<Block>`), `get_bits(start, count)` with 1 <= count <= nbits() and start+count within bounds returns the count-bit integer whose bit j is bit start+j of the array, whether or not the span crosses a block boundary; it panics when the span is out of bounds; `get_bit` returns the corresponding bit.", "quantifier": "all arrays, starts, counts, widths, modes", "why_tests_cant": "Straddling spans at every offset of every width.", "anchors": ["src/bit_vec/traits.rs:BitVec::get_bits", "src/bit_vec/traits.rs:BitVec::get_bit"]}
{"id": "C10", "title": "Multi-bit writes over block arrays", "statement": "`set_bits(start, count, value)` with 1 <= count <= nbits() on a block array sets exactly the bits start..start+count to the low bits of value, in order, and changes no other bit and not the length; `set_bit` changes exactly one bit; both panic when out of bounds.", "quantifier": "all arrays, spans, values, widths, modes", "why_tests_cant": "Interference with neighbouring bits across block boundaries depends on offset and count together.", "anchors": ["src/bit_vec/traits.rs:BitVecMut::set_bits", "src/bit_vec/traits.rs:BitVecMut::set_bit"]}
{"id": "C11", "title": "Zero-width accesses are harmless", "statement": "Reading or writing zero bits at any position start <= bit_len returns 0 / changes nothing and does not panic, because the empty span is in bounds.", "quantifier": "all arrays and positions including the end, all widths", "why_tests_cant": "Only the position at the exact end of a block-aligned vector is special.", "anchors": ["src/bit_vec/traits.rs:BitVec::get_bits", "src/bit_vec/traits.rs:BitVecMut::set_bits", "src/storage.rs:BlockType::get_bits"]}
{"id": "C12", "title": "The bit and block views of a bit vector agree", "statement": "For every in-bounds block index, `get_block` returns a block whose bit j is `get_bit(index*nbits + j)` for every position inside the vector, for implementations that use either default (`get_bit` from `get_block`, or `get_block` from `get_bit` as `Vec<bool>` does, where the padding bits are zero); the default `set_block` built from `set_bit` writes exactly the in-range bits of the block.", "quantifier": "all vectors, indices and values", "why_tests_cant": "Default methods are mutually defined; each implementor overrides a different subset.", "anchors": ["src/bit_vec/traits.rs:BitVec", "src/bit_vec/traits.rs:BitVecMut", "src/bit_vec/traits.rs:impl BitVec for Vec<bool>"]}
{"id": "C13", "title": "Unsigned integers are bit vectors of their own width", "statement": "A primitive u8..u64/usize used as a bit vector has length nbits() and one block equal to itself; get_bit/get_bits/set_bit/set_bits/set_block act on exactly the addressed bits and panic out of range.", "quantifier": "all values, positions, widths, modes", "why_tests_cant": "Whole-domain claim.", "anchors": ["src/bit_vec/prim.rs"]}
{"id": "C14", "title": "BitVector behaves like a list of bits", "statement": "Starting from any constructor, under every sequence of push_bit, pop_bit, set_bit, set_block, set_bits, push_block, align_block, resize, block_resize, truncate, block_truncate and clear, every observation (bit_len, block_len, get_bit, get_bits, pop results) equals that of a plain list of booleans undergoing the obvious operations, and an operation panics exactly when the list operation is out of bounds.", "quantifier": "all operation sequences of any length (bit fields of 1 to nbits() bits; for others see zero-width accesses and get_bits/set_bits outside the contract), all block types, both modes, vectors that fit in memory", "why_tests_cant": "Histories are unbounded and the failure cases (stale bits reappearing after shrink/grow) need specific interleavings.", "anchors": ["src/bit_vec/bit_vector.rs:BitVector", "src/internal/vector_base.rs:VectorBase"]}
{"id": "C15", "title": "BitVectors with the same bits are equal", "statement": "Two BitVectors reached by any two operation histories compare equal (derived Eq, and therefore hash equal) if and only if they hold the same sequence of bits: unused storage bits are always zero and no spare block is ever kept.", "quantifier": "all pairs of reachable vectors", "why_tests_cant": "Representation canonicity must survive every history, including shrink-then-grow.", "anchors": ["src/internal/vector_base.rs:VectorBase invariants", "src/bit_vec/bit_vector.rs:BitVector derive(Eq, Hash)"]}
{"id": "C16", "title": "BitVector rejects out-of-range accesses", "statement": "get_bit/set_bit at index >= bit_len(), get_block/set_block at index >= block_len(), and get_bits/set_bits past bit_len() panic in every reachable state, even when spare bits of the last block would make the access physically possible, and in builds without overflow checks.", "quantifier": "all reachable vectors, all u64 indices and counts up to nbits, both modes", "why_tests_cant": "Near-u64::MAX indices wrap in release builds.", "anchors": ["src/bit_vec/bit_vector.rs:BitVec for BitVector", "src/internal/vector_base.rs:get_bit", "src/internal/vector_base.rs:get_bits"]}
{"id": "C17", "title": "BitVector fill constructors", "statement": "`with_fill(len, v)` yields exactly len copies of v for every len that fits; `block_with_fill(n, b)` yields n*nbits bits repeating b; when len is too large the constructor panics as documented.", "quantifier": "all lengths and values, both modes and pointer sizes", "why_tests_cant": "The too-large case is at the top of u64 where the size computation wraps in release builds.", "anchors": ["src/bit_vec/bit_vector.rs:with_fill", "src/bit_vec/bit_vector.rs:block_with_fill"]}
{"id": "C18", "title": "BitVector resize keeps the prefix and fills the rest", "statement": "`resize(n, v)` makes the length n, keeps the first min(old, n) bits and sets all new bits to v, for any starting state (aligned or not) and any n; when n is too large it panics and does not destroy data.", "quantifier": "all vectors, all n and v, both modes", "why_tests_cant": "Fill with true has a separate path for the partial block; the failing corner is at the top of u64.", "anchors": ["src/bit_vec/bit_vector.rs:resize"]}
{"id": "C19", "title": "Block pushes align first", "statement": "`push_block(b)` pads with zero bits to the next block boundary and then appends the nbits() bits of b; `align_block(v)` appends the least number of copies of v that makes the length a multiple of nbits(). The optimised override and the bit-by-bit default give the same result.", "quantifier": "all vectors, blocks and values", "why_tests_cant": "Equality of an override with its reference default for all states.", "anchors": ["src/bit_vec/bit_vector.rs:push_block", "src/bit_vec/traits.rs:BitVecPush::push_block", "src/bit_vec/traits.rs:BitVecPush::align_block"]}
{"id": "C20", "title": "Bit push and pop are a stack", "statement": "pop_bit after push_bit(v) returns Some(v) and restores a vector equal to the original; pop_bit on an empty vector returns None and changes nothing; popping everything returns the bits in reverse order.", "quantifier": "all vectors and values", "why_tests_cant": "Block allocation and release at boundaries must be symmetric for every length.", "anchors": ["src/internal/vector_base.rs:push_bit", "src/internal/vector_base.rs:pop_bit"]}
{"id": "C21", "title": "BitVector storage is minimal and zero padded", "statement": "In every reachable state a BitVector of n bits has exactly ceil(n / nbits) blocks, `get_block(i)` returns the bits i*nbits.. in little-endian order and any bits of the last block beyond the length read as zero.", "quantifier": "all reachable states and block indices", "why_tests_cant": "Invariant over histories.", "anchors": ["src/internal/vector_base.rs:VectorBase", "src/bit_vec/bit_vector.rs:get_block"]}
{"id": "C22", "title": "IntVector behaves like a list of k-bit integers", "statement": "Under every sequence of push, pop, set, set_random, truncate, resize, clear, block_resize, block_truncate and set_block, every observation (len, is_empty, get, pop results) equals that of a plain list of integers below 2^k, for every width k from 1 to nbits().", "quantifier": "all operation sequences, all widths 1..nbits, all block types, both modes", "why_tests_cant": "Unbounded histories times 64 widths with straddling elements.", "anchors": ["src/int_vec/int_vector.rs:IntVector", "src/internal/vector_base.rs:VectorBase"]}
{"id": "C23", "title": "Setting one element never disturbs another", "statement": "After `set(i, x)`, `get(i)` is x, every other element is unchanged and so is the length; for elements that straddle blocks as well as aligned and block-sized ones.", "quantifier": "all vectors, indices, widths and values", "why_tests_cant": "Neighbour corruption shows only at particular offsets.", "anchors": ["src/int_vec/int_vector.rs:set", "src/int_vec/int_vector.rs:get"]}
{"id": "C24", "title": "Values too large for the element width are rejected", "statement": "push, set (for widths below the block size) and set_random panic when the value does not fit in the element width; with_fill and resize store the value reduced modulo 2^k and never touch neighbouring elements.", "quantifier": "all values, widths, vectors", "why_tests_cant": "Boundary 2^k for all k.", "anchors": ["src/int_vec/int_vector.rs:check_value", "src/int_vec/int_vector.rs:push", "src/int_vec/int_vector.rs:set", "src/int_vec/int_vector.rs:set_random", "src/int_vec/int_vector.rs:resize", "src/int_vec/int_vector.rs:with_fill"]}
{"id": "C25", "title": "Element width is validated", "statement": "Every IntVector constructor panics unless 1 <= element_bits <= nbits(), so no IntVector with an invalid width exists, and every valid width is accepted by `new`.", "quantifier": "all widths, constructors and other arguments, both modes", "why_tests_cant": "Constructors do their arithmetic before the check.", "anchors": ["src/int_vec/int_vector.rs:check_element_bits", "src/int_vec/int_vector.rs:create", "src/int_vec/int_vector.rs:with_fill", "src/int_vec/int_vector.rs:block_with_fill"]}
{"id": "C26", "title": "IntVectors of equal width and elements are equal", "statement": "Two reachable IntVectors compare equal (derived Eq/Hash) if and only if they have the same element width and the same elements, regardless of history.", "quantifier": "all pairs of reachable vectors", "why_tests_cant": "Canonicity over histories.", "anchors": ["src/int_vec/int_vector.rs:IntVector derive(PartialEq)", "src/internal/vector_base.rs:VectorBase"]}
{"id": "C27", "title": "Reinterpreting access is exact", "statement": "`get_random(off, k, i)` returns the k bits starting at bit off + i*k of the vector's bit string, and `set_random` changes exactly those bits; both panic when the span passes the last element or the address overflows u64.", "quantifier": "all vectors, offsets, widths k >= 1, indices, both modes", "why_tests_cant": "Address arithmetic near u64::MAX; arbitrary alignment.", "anchors": ["src/int_vec/int_vector.rs:get_random", "src/int_vec/int_vector.rs:set_random", "src/int_vec/int_vector.rs:compute_address_random"]}
{"id": "C28", "title": "An IntVector is also a bit vector", "statement": "Seen as a bit vector, an IntVector of n elements of width k has n*k bits, and bit i*k+j is bit j of element i.", "quantifier": "all vectors", "why_tests_cant": "Layout equality at all widths.", "anchors": ["src/int_vec/int_vector.rs:BitVec for IntVector"]}
{"id": "C29", "title": "Iterators visit every element once, in order, from both ends", "statement": "`iter()` yields exactly the elements in index order; under any interleaving of next, next_back and nth the results are those of the same calls on a double-ended queue of the elements, and after exhaustion both ends keep returning None.", "quantifier": "all vectors, all interleavings of iterator calls", "why_tests_cant": "Interleavings are unbounded.", "anchors": ["src/internal/vector_base.rs:Iter", "src/bit_vec/bit_vector.rs:Iter", "src/int_vec/int_vector.rs:Iter"]}
{"id": "C30", "title": "Iterator length is always exact", "statement": "At every point of any iteration `size_hint`, `len` and `count` report exactly the number of elements still to be yielded.", "quantifier": "all vectors and call histories, both modes", "why_tests_cant": "Requires looking after every possible history, including skipping past the end.", "anchors": ["src/internal/vector_base.rs:Iter::size_hint", "src/internal/vector_base.rs:Iter::len", "src/internal/vector_base.rs:Iter::nth"]}
{"id": "C31", "title": "Formatting shows the contents", "statement": "`{:b}` of a BitVector prints one character per bit, in index order; `{:?}` of an IntVector lists every element in order with its width.", "quantifier": "all vectors", "why_tests_cant": "All sizes.", "anchors": ["src/bit_vec/bit_vector.rs:fmt::Binary", "src/int_vec/int_vector.rs:fmt::Debug"]}
{"id": "C32", "title": "A bit slice is a window on its base", "statement": "For start <= end <= base.bit_len(), the slice start..end has length end-start, its bit i is base bit start+i, and its multi-bit reads equal reads of the base at the shifted position; reads at or past its length panic even when the base extends further; a range whose end exceeds the base is rejected.", "quantifier": "all bases, ranges, positions, counts, both modes", "why_tests_cant": "Window arithmetic for all ranges including overflow-prone positions.", "anchors": ["src/bit_vec/bit_slice.rs:BitSlice", "src/bit_vec/bit_slice.rs:IntoRange"]}
{"id": "C33", "title": "A mutable bit slice writes only inside its window", "statement": "set_bit and set_bits through a mutable slice change exactly the addressed bits of the base and no bit outside the window; out-of-window writes panic.", "quantifier": "all bases, windows, positions, values", "why_tests_cant": "Isolation is a universal claim about untouched bits.", "anchors": ["src/bit_vec/bit_slice.rs:BitSliceMut"]}
{"id": "C34", "title": "Slicing composes", "statement": "Slicing a slice by a..b equals slicing the base by start+a..start+b; the four range forms (a..b, ..b, a.., ..) fill in 0 and the length; nested slices built with `new` observe the same bits as flat ones built with `slice`.", "quantifier": "all ranges nested to any depth", "why_tests_cant": "Arbitrary nesting.", "anchors": ["src/bit_vec/bit_slice.rs:BitSlice::slice", "src/bit_vec/bit_slice.rs:BitSlice::new", "src/bit_vec/bit_slice.rs:IntoRange"]}
{"id": "C35", "title": "Block access through a slice honours the block contract", "statement": "For every block index below block_len() of a slice, get_block returns the slice's bits (the last block may contain extra bits) and does not panic, and every index at or beyond block_len() panics.", "quantifier": "all slices and block indices", "why_tests_cant": "Holds or fails depending on slice length modulo the block size and on huge indices.", "anchors": ["src/bit_vec/bit_slice.rs:BitSlice::get_block", "src/bit_vec/bit_slice.rs:BitSliceMut::set_block", "src/bit_vec/traits.rs:BitVec::get_block"]}
{"id": "C36", "title": "Rank on machine words", "statement": "For a primitive integer x and position p < nbits(), rank1(p) is the number of one bits at positions 0..=p, rank0(p) the number of zero bits, and rank(p, v) agrees.", "quantifier": "all words, positions, widths, modes", "why_tests_cant": "2^64 words.", "anchors": ["src/rank/prim.rs", "src/rank/traits.rs"]}
{"id": "C37", "title": "Jacobson rank is correct", "statement": "For every bit vector of at least 2 bits with zero padding, JacobsonRank::new(v).rank1(p) is the number of ones in positions 0..=p and rank0(p) the number of zeros, for every p < bit_len; construction does not panic.", "quantifier": "all bit vectors of any length and block type, all positions, both modes, both pointer sizes", "why_tests_cant": "Two-level directory with lg^2 n sized blocks; errors appear only at certain lengths.", "anchors": ["src/rank/jacobson.rs:JacobsonRank::new", "src/rank/jacobson.rs:rank1"]}
{"id": "C38", "title": "Jacobson rank can be built for every bit vector", "statement": "JacobsonRank::new succeeds on every bit vector, including empty and one-bit vectors.", "quantifier": "all lengths", "why_tests_cant": "Only degenerate lengths matter.", "anchors": ["src/rank/jacobson.rs:JacobsonRank::new"]}
{"id": "C39", "title": "Rank9 is correct", "statement": "For every bit vector over 64-bit blocks (including the empty one), Rank9::new succeeds and rank1(p) is the number of ones in positions 0..=p and rank0(p) the number of zeros, for every p < bit_len.", "quantifier": "all bit vectors of any length, all positions, both modes, both pointer sizes", "why_tests_cant": "Packed 9-bit counters with a wrap-around shift trick.", "anchors": ["src/rank/rank9.rs:Rank9::new", "src/rank/rank9.rs:rank1", "src/rank/rank9.rs:Level2"]}
{"id": "C40", "title": "Rank queries past the end panic", "statement": "rank, rank1 and rank0 panic when position >= limit(), for every rank structure, as documented.", "quantifier": "all structures, positions, both modes", "why_tests_cant": "Depends on structure, build mode and vector length.", "anchors": ["src/rank/jacobson.rs:rank1", "src/rank/rank9.rs:rank1", "src/rank/prim.rs", "src/broadword.rs:Broadword", "src/rank/traits.rs"]}
{"id": "C41", "title": "Rank structure laws", "statement": "For every supported rank structure and p < limit: rank0(p) + rank1(p) = p + 1; rank1 and rank0 are monotone in p and grow by at most 1 per position; bit p is set exactly when rank1 increases at p.", "quantifier": "all structures, vectors, positions", "why_tests_cant": "Universal laws binary search relies on.", "anchors": ["src/rank/traits.rs", "src/rank/jacobson.rs", "src/rank/rank9.rs"]}
{"id": "C42", "title": "Wrappers are transparent", "statement": "JacobsonRank, Rank9, BinSearchSelect and BitBuffer expose exactly the bits, blocks and lengths of the structure they wrap, and inner()/into_inner() give it back unchanged.", "quantifier": "all wrapped values", "why_tests_cant": "Delegation macros, all inputs.", "anchors": ["src/macros.rs", "src/rank/jacobson.rs", "src/rank/rank9.rs", "src/select/bin_search.rs", "src/stream/bit_buffer.rs"]}
{"id": "C43", "title": "Binary search over a monotone function", "statement": "Given a monotone f, the search over start..limit returns the least d in the interval with f(d) >= value, or None when there is none; it terminates and evaluates f only inside the interval; midpoints never overflow.", "quantifier": "all intervals up to the full u64 range, all monotone functions, all values", "why_tests_cant": "All intervals and functions.", "anchors": ["src/internal/search.rs"]}
{"id": "C44", "title": "Select finds the k-th occurrence", "statement": "Over any correct rank structure, select1(k) (select0, select) returns the position of the k-th (0-based) one (zero, value) and None when there are not that many, for every u64 k.", "quantifier": "all structures, vectors and u64 k, both modes", "why_tests_cant": "Includes k near u64::MAX.", "anchors": ["src/select/bin_search.rs", "src/select/traits.rs"]}
{"id": "C45", "title": "Rank and select are inverse", "statement": "If select1(k) = Some(p) then bit p is set and rank1(p) = k+1; conversely for every set bit p, select1(rank1(p) - 1) = Some(p); likewise for zeros.", "quantifier": "all structures, all k below u64::MAX (for k = u64::MAX see the exact behaviour in C44) and all p", "why_tests_cant": "Universal law.", "anchors": ["src/select/bin_search.rs", "src/rank/jacobson.rs", "src/rank/rank9.rs"]}
{"id": "C46", "title": "Broadword popcount", "statement": "`broadword::count_ones(x)` is the number of one bits of x and never overflows in debug builds.", "quantifier": "all 2^64 words", "why_tests_cant": "2^64 words.", "anchors": ["src/broadword.rs:count_ones"]}
{"id": "C47", "title": "Broadword select", "statement": "`broadword::select1(r, x)` returns the position of the r-th (0-based) one bit of x, or None when x has at most r ones, for every r.", "quantifier": "all words and all r", "why_tests_cant": "2^64 words, and r beyond the tested range 0..=64.", "anchors": ["src/broadword.rs:select1", "src/broadword.rs:select1_raw"]}
{"id": "C48", "title": "Unsigned parallel comparisons", "statement": "`u_le8(x, y)` sets the top bit of exactly those bytes where the byte of x is <= the byte of y as unsigned, `u_nz8(x)` those where the byte is non-zero; all other result bits are zero and no byte affects another.", "quantifier": "all pairs of words", "why_tests_cant": "2^128 pairs.", "anchors": ["src/broadword.rs:u_le8", "src/broadword.rs:u_nz8"]}
{"id": "C49", "title": "Signed parallel comparison", "statement": "`le8(x, y)` sets the top bit of exactly those bytes where the byte of x is <= the byte of y as signed bytes.", "quantifier": "all pairs of words", "why_tests_cant": "2^128 pairs; the repository's own test for this is commented out.", "anchors": ["src/broadword.rs:le8"]}
{"id": "C50", "title": "Broadword rank", "statement": "Broadword(x).rank1(p) is the number of one bits at positions 0..=p for p < 64.", "quantifier": "all words and positions", "why_tests_cant": "2^64 words.", "anchors": ["src/broadword.rs:Broadword"]}
{"id": "C51", "title": "Little-endian integer I/O round-trips", "statement": "write_int(n, v) writes n bits, bit j of v as the j-th bit; read_int(n) after it returns v modulo 2^n (n up to the type width) and leaves exactly the following bits; wider n zero-extends/ drops high bits.", "quantifier": "all widths, values, n, sinks/sources", "why_tests_cant": "All n and values.", "anchors": ["src/stream/traits.rs:write_int", "src/stream/traits.rs:read_int"]}
{"id": "C52", "title": "Big-endian integer I/O round-trips", "statement": "For 1 <= n <= width, write_int_be(n, v) writes the low n bits most significant first and read_int_be(n) after it returns v modulo 2^n and leaves exactly the following bits.", "quantifier": "all widths, values, n", "why_tests_cant": "All n and values; n = 0 is a corner.", "anchors": ["src/stream/traits.rs:write_int_be", "src/stream/traits.rs:read_int_be"]}
{"id": "C53", "title": "End of stream versus truncation", "statement": "read_int/read_int_be of n >= 1 bits return Ok(None) when no bit is left, an UnexpectedEof error when some but fewer than n bits are left, and consume nothing beyond n bits; errors from the source are passed through unchanged at the point they occur.", "quantifier": "all remaining streams, n, error points", "why_tests_cant": "All truncation points and fault points.", "anchors": ["src/stream/traits.rs", "src/internal/errors.rs"]}
{"id": "C54", "title": "A bit buffer is a file of bits with a cursor", "statement": "Under every sequence of write_bit, read_bit and seek, a BitBuffer behaves like a list of bits with a cursor: write overwrites at the cursor or appends at the end and advances, read returns the bit at the cursor and advances or returns None at the end without moving, seek succeeds exactly for positions <= length and otherwise errs without moving. Bits written and then read after seek(0) come back in order.", "quantifier": "all operation sequences, all inner vectors", "why_tests_cant": "Unbounded histories.", "anchors": ["src/stream/bit_buffer.rs"]}
{"id": "C55", "title": "Unary code round-trips", "statement": "Unary encode writes n zeros and a one; decode returns n and leaves the following bits unread, for all n.", "quantifier": "all values, all following bits, all lawful sinks and sources", "why_tests_cant": "All n and suffixes.", "anchors": ["src/coding/unary.rs"]}
{"id": "C56", "title": "Elias gamma round-trips", "statement": "For every value >= 1, GAMMA encode then decode returns the value and leaves the following bits unread.", "quantifier": "all values, all following bits, all lawful sinks and sources", "why_tests_cant": "2^64 values.", "anchors": ["src/coding/elias.rs:Elias"]}
{"id": "C57", "title": "Elias delta round-trips", "statement": "For every value >= 1, DELTA encode then decode returns the value and leaves the following bits unread.", "quantifier": "all values, all following bits, all lawful sinks and sources", "why_tests_cant": "2^64 values.", "anchors": ["src/coding/elias.rs:Delta", "src/coding/trans.rs"]}
{"id": "C58", "title": "Elias omega round-trips", "statement": "For every value >= 1, Omega encode then decode returns the value and leaves the following bits unread.", "quantifier": "all values, all following bits, all lawful sinks and sources", "why_tests_cant": "2^64 values.", "anchors": ["src/coding/elias.rs:Omega"]}
{"id": "C59", "title": "Comma code round-trips", "statement": "For digit sizes 2 <= n <= 63 and every value including 0, Comma(n) encode then decode returns the value and leaves the following bits unread.", "quantifier": "all n in 2..=63, all values, all following bits, all lawful sinks and sources", "why_tests_cant": "2^64 values times 62 bases.", "anchors": ["src/coding/comma.rs"]}
{"id": "C60", "title": "Fibonacci code round-trips", "statement": "For every value from 1 up to (excluding) the largest Fibonacci number that fits in u64, Fibonacci encode then decode returns the value and leaves the following bits unread; for larger values encode returns an InvalidData error and writes nothing.", "quantifier": "all values, all following bits, all lawful sinks and sources", "why_tests_cant": "2^64 values and the exact failure boundary.", "anchors": ["src/coding/fib.rs"]}
{"id": "C61", "title": "Lift0 shifts any code by one", "statement": "If a code round-trips values >= 1 then Lift0 of it round-trips every value < u64::MAX including 0; Lift0 encode of u64::MAX returns an InvalidData error and writes nothing.", "quantifier": "all underlying codes and values", "why_tests_cant": "Quantifies over codes.", "anchors": ["src/coding/trans.rs"]}
{"id": "C62", "title": "Streams of codewords decode to the sequence that was encoded", "statement": "Encoding any list of representable values one after another and then decoding repeatedly returns the same list followed by Ok(None), for every code and for both VecDeque<bool> and BitBuffer streams.", "quantifier": "all lists, all codes", "why_tests_cant": "Unbounded lists.", "anchors": ["src/coding/mod.rs:properties::code_decode", "src/coding"]}
{"id": "C63", "title": "Codewords are prefix-free and unambiguous", "statement": "Distinct representable values have distinct codewords and none is a prefix of another.", "quantifier": "all pairs of values, all codes", "why_tests_cant": "All pairs.", "anchors": ["src/coding"]}
{"id": "C64", "title": "Truncated codewords are detected", "statement": "Decoding a proper non-empty prefix of a codeword returns an UnexpectedEof error, and decoding from an exhausted stream returns Ok(None), for every code.", "quantifier": "all codes, values and truncation points", "why_tests_cant": "Every truncation point of every codeword.", "anchors": ["src/coding", "src/internal/errors.rs"]}
{"id": "C65", "title": "Codes that cannot represent zero reject it", "statement": "encode(0) panics, before touching the sink, for codes documented not to handle 0: Gamma, Delta, Omega, Fibonacci.", "quantifier": "all such codes and sinks", "why_tests_cant": "-", "anchors": ["src/coding/elias.rs", "src/coding/fib.rs"]}
{"id": "C66", "title": "Decoders never panic on arbitrary input", "statement": "Decoding from any finite bit stream returns a value, None or an error; it never panics and terminates.", "quantifier": "all finite bit streams, all codes, both modes", "why_tests_cant": "All adversarial inputs.", "anchors": ["src/coding"]}
{"id": "C67", "title": "Encoders report sink failures faithfully", "statement": "If the sink fails at its k-th bit, encode returns that very error and the sink has received exactly the first k bits of the codeword in order; if it never fails, exactly the codeword is written.", "quantifier": "all codes, values, sinks and failure points", "why_tests_cant": "All fault points.", "anchors": ["src/coding", "src/stream/traits.rs:BitWrite"]}
{"id": "C68", "title": "Codeword lengths", "statement": "Gamma uses 2*floor(lg v)+1 bits, delta floor(lg v) + 2*floor(lg(floor(lg v)+1)) + 1, unary v+1, comma n*(digits+1), Fibonacci the Zeckendorf length plus one.", "quantifier": "all values", "why_tests_cant": "All values.", "anchors": ["src/coding"]}
{"id": "C69", "title": "Comma encoding terminates", "statement": "Comma(n).encode terminates for every digit size n and value.", "quantifier": "all n and values", "why_tests_cant": "Non-termination cannot be tested.", "anchors": ["src/coding/comma.rs"]}
{"id": "C70", "title": "Reserved capacity is honoured", "statement": "After `with_capacity(c)` the vector can hold c elements without reallocating, after `reserve(a)`/`reserve_exact(a)` it can hold a more elements than its current length without reallocating; requests whose bit count overflows panic; none of these change the contents.", "quantifier": "all vectors, capacities, requests, both modes, all allocators obeying Vec's contract", "why_tests_cant": "Depends on the relation between spare capacity and request; no test covers reserve on a vector with spare capacity.", "anchors": ["src/internal/vector_base.rs:additional_blocks", "src/internal/vector_base.rs:reserve", "src/bit_vec/bit_vector.rs:reserve", "src/int_vec/int_vector.rs:reserve"]}
{"id": "C71", "title": "Space accounting is compositional", "statement": "Types that claim to be stack-only report zero heap bytes, and is_stack_only is true exactly for the types whose values never own heap memory; a vector's heap bytes are capacity times element stack size plus the elements' own heap bytes; tuples, boxes and the rank structures sum their parts; total is stack plus heap.", "quantifier": "all values", "why_tests_cant": "Recursive composition of any depth.", "anchors": ["src/space_usage.rs", "src/macros.rs"]}
{"id": "C72", "title": "Rank directories are small", "statement": "For a vector of n bits in m blocks, Rank9 stores floor(m/8)+1 two-word cells, i.e. at most 1/4 of the data plus a constant, and JacobsonRank stores one small entry per block plus one and one large entry per lg^2-sized block plus one.", "quantifier": "all vectors", "why_tests_cant": "All sizes.", "anchors": ["src/rank/rank9.rs:Rank9::new", "src/rank/jacobson.rs:JacobsonRank::new"]}
{"id": "C73", "title": "Vector ordering is a total order consistent with equality", "statement": "The derived ordering on BitVector/IntVector is total, antisymmetric and transitive, says Equal exactly for vectors with the same contents, and orders shorter vectors first.", "quantifier": "all pairs and triples of reachable vectors", "why_tests_cant": "Total-order laws quantify over triples.", "anchors": ["src/internal/vector_base.rs:VectorBase derive(Ord)", "src/bit_vec/bit_vector.rs", "src/int_vec/int_vector.rs"]}
{"id": "C74", "title": "Requests wider than a block are rejected", "statement": "get_bits/set_bits with count > nbits() panic instead of returning or storing a silently truncated value.", "quantifier": "all arrays, starts and counts > nbits, both modes", "why_tests_cant": "Whether it panics depends on alignment and build mode.", "anchors": ["src/bit_vec/traits.rs:BitVec::get_bits", "src/bit_vec/traits.rs:BitVecMut::set_bits"]}
{"id": "C75", "title": "Out-of-range block writes are rejected", "statement": "The default `set_block` (used by Vec<bool>) panics for every block index at or beyond block_len() and never writes to another block.", "quantifier": "all vectors, block indices (any usize), both pointer widths", "why_tests_cant": "Only astronomically large indices, whose bit position wraps modulo 2^64, show the difference.", "anchors": ["src/bit_vec/traits.rs:BitVecMut::set_block"]}
{"id": "C76", "title": "Out-of-range element indices are rejected", "statement": "`IntVector::get(i)` and `set(i, x)` panic for every index i >= len(), for all element widths including block-sized ones.", "quantifier": "all reachable vectors, all u64 indices, both modes, both pointer widths", "why_tests_cant": "Block-sized elements index the block vector directly with a truncating cast, which differs from the other path only for indices of 2^32 and more on 32-bit targets.", "anchors": ["src/int_vec/int_vector.rs:IntVec::get", "src/int_vec/int_vector.rs:IntVecMut::set"]}
{"id": "C77", "title": "Decoders accept only codewords", "statement": "Whenever a decoder returns a value v, the bits it has read are exactly the codeword of v: no other bit sequence decodes to v, and garbage is never taken for a value.", "quantifier": "all codes, all bit streams of fewer than 2^64 bits, both modes, both pointer widths", "why_tests_cant": "The set of non-codewords is infinite and the decoders contain wrapping arithmetic and truncating casts that matter only for values near 2^64 or 2^32.", "anchors": ["src/coding/traits.rs", "src/coding/unary.rs", "src/coding/elias.rs", "src/coding/comma.rs", "src/coding/fib.rs"]}
{"id": "C78", "title": "BitVector survives caught panics", "statement": "Any sequence of calls on a BitVector, each under catch_unwind, behaves like the same sequence on a list of booleans in which every out-of-range call is a no-op: a call that panics leaves exactly the vector it started from.", "quantifier": "all constructors, call sequences and arguments, both modes and pointer widths", "why_tests_cant": "Requires observing the state left behind by every possible panic point inside every method.", "anchors": ["src/internal/vector_base.rs", "src/bit_vec/bit_vector.rs", "src/bit_vec/traits.rs:BitVecMut::set_bits"]}
{"id": "C79", "title": "IntVector survives caught panics", "statement": "Any sequence of calls on an IntVector, each under catch_unwind, behaves like the same sequence on a list of k-bit numbers in which every call that must panic (bad index, value too wide, address overflow) is a no-op.", "quantifier": "all constructors, element widths, call sequences and arguments, both modes and pointer widths", "why_tests_cant": "Requires observing the state left behind by every possible panic point inside every method.", "anchors": ["src/internal/vector_base.rs", "src/int_vec/int_vector.rs"]}
{"id": "C80", "title": "Setters have the strong exception guarantee", "statement": "Whatever its arguments (including zero or overwide field widths and positions whose end overflows), a set_bit/set_block/set_bits/set/set_random call that panics has written nothing, on BitVector, IntVector and slices of blocks; a refused resize has changed nothing.", "quantifier": "all reachable vectors, all arguments, both modes and pointer widths", "why_tests_cant": "A half-done write across two blocks would only be seen after a caught panic.", "anchors": ["src/bit_vec/traits.rs:BitVecMut::set_bits", "src/bit_vec/traits.rs:BitVecMut::set_bit", "src/internal/vector_base.rs:set_block", "src/internal/vector_base.rs:resize"]}
{"id": "C81", "title": "The default set_block has the strong exception guarantee", "statement": "A Vec<bool>::set_block call that panics has written nothing.", "quantifier": "all vectors, block indices (any usize), values, both modes and pointer widths", "why_tests_cant": "Only indices of 2^61 and more, whose bit position wraps, show the difference, and only after a caught panic.", "anchors": ["src/bit_vec/traits.rs:BitVecMut::set_block"]}
{"id": "C82", "title": "Capacity bounds length and reallocation", "statement": "After any sequence of push, pop, truncate, clear, resize, reserve, reserve_exact, block_reserve, block_reserve_exact and shrink_to_fit, capacity() >= len(); and a vector made with capacity n never reallocates while its length stays at most n, whatever the order of edits.", "quantifier": "all operation sequences, element widths, allocators obeying Vec's contract, both modes and pointer widths", "why_tests_cant": "Sequences of unbounded length and unspecified allocator behaviour.", "anchors": ["src/internal/vector_base.rs:capacity", "src/internal/vector_base.rs:with_capacity", "src/internal/vector_base.rs:resize"]}
{"id": "C83", "title": "Rank structures can be built over bit slices", "statement": "For every slice of a lawful bit vector (at least two bits for Jacobson), Rank9::new and JacobsonRank::new succeed and the structure answers every rank query about the slice's bits.", "quantifier": "all base vectors, windows and positions, both modes and pointer widths", "why_tests_cant": "Quantifies over all windows; a test would have to pick an unaligned one.", "anchors": ["src/rank/rank9.rs:Rank9::new", "src/rank/jacobson.rs:JacobsonRank::new", "src/bit_vec/bit_slice.rs:get_block"]}
{"id": "C84", "title": "Bit buffers can read from bit slices", "statement": "Reading from BitBuffer::from(slice) yields exactly the bits of the slice, one per read_bit, and then None.", "quantifier": "all base vectors, windows and read positions, both modes and pointer widths", "why_tests_cant": "Quantifies over all windows; a test would have to pick an unaligned one.", "anchors": ["src/stream/bit_buffer.rs:read_bit", "src/bit_vec/bit_slice.rs:get_block"]}
{"id": "C85", "title": "Hashing is consistent with equality and injective on contents", "statement": "Two BitVectors (IntVectors) with the same contents make the same sequence of Hasher calls, whatever calls built them; two with different contents (or element widths) feed different byte strings, neither of which extends to the other. What is fed is, in this order: for an IntVector its element width, then the length, the number of blocks, and the blocks packed from the contents.", "quantifier": "all pairs of reachable vectors, all hashers, both byte orders and pointer widths", "why_tests_cant": "Quantifies over pairs of vectors and over hashers; unequal padding or capacity would only rarely show.", "anchors": ["src/internal/vector_base.rs:VectorBase derive(Hash)", "src/bit_vec/bit_vector.rs", "src/int_vec/int_vector.rs"]}
{"id": "C86", "title": "Addresses are ordered like the bits they denote", "statement": "For bit indices i and j, comparing Address::new(i) with Address::new(j) gives the same result as comparing i with j.", "quantifier": "all block types, all pairs of bit indices with an address", "why_tests_cant": "All pairs of indices.", "anchors": ["src/storage.rs:Address"]}
{"id": "C87", "title": "The order of bit vectors does not depend on the block type", "statement": "Comparing two BitVectors gives the same result whichever block type stores the same two bit sequences.", "quantifier": "all pairs of bit sequences, all pairs of block types", "why_tests_cant": "Quantifies over pairs of vectors and block types; needs vectors longer than one block.", "anchors": ["src/internal/vector_base.rs:VectorBase derive(Ord)", "src/bit_vec/bit_vector.rs"]}
{"id": "C88", "title": "IntVectors of equal width and length are ordered lexicographically", "statement": "Of two IntVectors with the same element width and length, the one with the smaller element at the first difference is the smaller.", "quantifier": "all pairs of reachable vectors, all element widths", "why_tests_cant": "Quantifies over pairs of vectors; equal prefixes hide the difference.", "anchors": ["src/internal/vector_base.rs:VectorBase derive(Ord)", "src/int_vec/int_vector.rs"]}
{"id": "C89", "title": "Binary search works for arbitrary functions", "statement": "binary_search_function, given any f (not necessarily monotone), terminates, never evaluates f outside start..limit, never overflows, and returns either a point where f reaches the value and did not just before, or None, in which case f does not reach the value at limit-1; if f panics somewhere, the search still terminates.", "quantifier": "all functions, intervals up to the whole type, values, both modes", "why_tests_cant": "Quantifies over all functions; existing tests use monotone ones.", "anchors": ["src/internal/search.rs:binary_search_function"]}
{"id": "C90", "title": "Select asks logarithmically many rank queries", "statement": "select over a vector of at most 2^k bits asks at most 2k+1 rank queries, hence never more than 129; this is attained at every length 2^k, and an unsuccessful select over n >= 1 bits asks exactly floor(lg n)+1 queries (the README promises O(lg lg n) time).", "quantifier": "all lawful rank structures, indices and values", "why_tests_cant": "Cost is not observable in tests of results.", "anchors": ["src/internal/search.rs:binary_search_function", "src/select/bin_search.rs"]}
{"id": "C91", "title": "Queries touch a constant amount of data", "statement": "Rank9::rank1 depends on one directory cell and one block only, JacobsonRank::rank1 on one entry of each directory and one block, the default get_bits on two blocks: structures that agree there give the same answer (or the same panic).", "quantifier": "all structures, over any two bit vectors, all positions", "why_tests_cant": "Noninterference relates two executions.", "anchors": ["src/rank/rank9.rs:rank1", "src/rank/jacobson.rs:rank1", "src/bit_vec/traits.rs:BitVec::get_bits"]}
{"id": "C92", "title": "Codeword lengths are monotone and bounded", "statement": "For u <= v, the codeword of u is not longer than that of v, for every code and every combination of Elias and Lift0; no Gamma codeword is longer than 127 bits, no Delta or Omega one longer than 76, no Fibonacci one longer than 92.", "quantifier": "all codes, pairs of values", "why_tests_cant": "Quantifies over pairs of values.", "anchors": ["src/coding"]}
{"id": "C93", "title": "Codewords satisfy Kraft's inequality", "statement": "For every finite set of distinct encodable values, the sum over the set of 2^-(number of bits written by encode) is at most 1.", "quantifier": "all codes, finite sets of values", "why_tests_cant": "Quantifies over sets of values.", "anchors": ["src/coding"]}
{"id": "C94", "title": "Nested bit vectors are lawful", "statement": "Every value obtained by nesting BitVector, IntVector, Vec, Vec<bool>, words, BitSlice, JacobsonRank, Rank9, BinSearchSelect and BitBuffer in any way and to any depth shows exactly the bits it was made from (length, bits, spans, and blocks where blocks are available), and rank and select over it are right.", "quantifier": "all nestings of any depth, all contents, positions", "why_tests_cant": "Infinitely many types.", "anchors": ["src/bit_vec", "src/rank", "src/select", "src/stream/bit_buffer.rs", "src/macros.rs"]}
{"id": "C95", "title": "Every call on a vector, iterator, rank structure or buffer ends", "statement": "No call on a BitVector, IntVector, their iterators and formatting, Rank9, JacobsonRank, binary-search select or BitBuffer hangs, whatever the arguments, in any state, reachable or not: it returns or panics.", "quantifier": "all operations, arguments, states (including inconsistent ones), stores whose own reads end", "why_tests_cant": "Hanging cannot be observed in finite time; the loops whose ends are moved by wrapping arithmetic are the danger.", "anchors": ["src/internal/vector_base.rs", "src/bit_vec/bit_vector.rs", "src/int_vec/int_vector.rs", "src/bit_vec/traits.rs", "src/rank", "src/select", "src/internal/search.rs", "src/stream/bit_buffer.rs"]}
{"id": "C96", "title": "Exactly when encoding and decoding end", "statement": "For every code that can be built (any digit size, any nesting of Elias and Lift0): decoding ends on every source that cannot deliver bits for ever; Fibonacci decoding ends on every source; encoding hangs on exactly the values which put a positive number through Comma with digit size 1 (or 65, 129, 193 without overflow checks).", "quantifier": "all codes and digit sizes, all u64 values, all sinks and sources", "why_tests_cant": "Hanging cannot be observed in finite time.", "anchors": ["src/coding"]}
{"id": "C97", "title": "What words do outside the contract", "statement": "For every argument, not only valid ones: ceil_div, ceil_div_nbits, checked_ceil_div_nbits, mul_nbits, div_nbits, low_mask, Block get_bits/with_bits, the BitVec methods of a word and rank of a word either panic or return the stated value; in particular the results without overflow checks after a wrapped addition, and without debug assertions for an oversized mask or position, are given by a closed formula.", "quantifier": "all block widths, arguments, combinations of overflow checks and debug assertions, and pointer widths", "why_tests_cant": "The inputs lie within a few units of 2^32 or 2^64, or need a build without overflow checks.", "anchors": ["src/storage.rs:BlockType", "src/bit_vec/prim.rs", "src/rank/prim.rs"]}
{"id": "C98", "title": "What get_bits and set_bits do outside the contract", "statement": "For every u64 start and usize count (zero, wider than a block, past the end, wrapping), the default get_bits returns the stated bits or panics, and the default set_bits leaves the stated contents or panics, for every implementation relying on the defaults.", "quantifier": "all lawful bit vectors, starts, counts, values, build modes", "why_tests_cant": "Counts above the block width and wrapped ends are never tried, and depend on the build mode.", "anchors": ["src/bit_vec/traits.rs:get_bits,set_bits"]}
{"id": "C99", "title": "What wrapped indices and lengths do", "statement": "For every index: get_block/set_block of a slice, get/set and get_random of IntVector and set_block of Vec<bool> act on the position reduced modulo 2^64 (or truncated to usize) exactly as stated, including what a panic leaves behind; with_fill and resize of BitVector at lengths within a block of 2^64 panic with overflow checks and give an empty vector without.", "quantifier": "all indices, offsets, widths, lengths, contents, build modes", "why_tests_cant": "Indices above 2^58 are never tried.", "anchors": ["src/bit_vec/bit_slice.rs:get_block,set_block", "src/int_vec/int_vector.rs:get,set,get_random", "src/bit_vec/traits.rs:set_block", "src/bit_vec/bit_vector.rs:with_fill,resize"]}
{"id": "C100", "title": "Capacity calls never affect contents, and sufficient capacity is never exceeded", "statement": "For any sequence of BitVector or IntVector calls mixed with reserve, reserve_exact, block_reserve, block_reserve_exact and shrink_to_fit: results and contents are those of the sequence without the capacity calls, capacity() is at least the length afterwards, and a vector made with_capacity(n) whose length never exceeds n is never reallocated.", "quantifier": "all call sequences, allocators, block and element widths", "why_tests_cant": "All interleavings of calls under all allocation policies.", "anchors": ["src/bit_vec/bit_vector.rs", "src/int_vec/int_vector.rs", "src/internal/vector_base.rs"]}
{"id": "C101", "title": "How elements lie in blocks", "statement": "is_block_sized is true iff elements are blocks; is_aligned is true iff no element at any index has bits in two blocks; is_empty is true iff there are no elements; block_truncate(n) and pop_block keep exactly the elements that lie wholly in the remaining blocks; push_block makes elements of all bits up to the end of the new block.", "quantifier": "all reachable vectors, element widths, blocks", "why_tests_cant": "All widths, lengths and contents.", "anchors": ["src/int_vec/int_vector.rs:is_aligned,is_block_sized,block_truncate", "src/internal/vector_base.rs:push_block,pop_block"]}
{"id": "C102", "title": "The crate's own quickcheck properties hold for all arguments, or fail exactly as stated", "statement": "broadword.rs's properties of count_ones, select1, u_nz8 and u_le8 hold for all arguments (select1's for r <= 64, which it is guarded by). storage.rs floor_lg's property holds for 1 <= n < 2^63 and fails above, ceil_lg's holds for 2 <= n <= 2^63 and fails above, because 2.pow(64) overflows; ceil_div's holds when neither n*m nor n+m overflows and, with overflow checks, panics when n*m does. coding/mod.rs code_decode holds for every list without u64::MAX, for gamma, delta, omega and comma 2 to 4, and panics with overflow checks for the others; for Fibonacci it holds exactly when all values plus one are below the largest Fibonacci number in u64.", "quantifier": "all arguments of the quickcheck properties, both modes and pointer widths", "why_tests_cant": "quickcheck draws a hundred small arguments; the failing ones are never drawn.", "anchors": ["src/broadword.rs:tests", "src/storage.rs:tests", "src/coding/mod.rs:properties"]}
{"id": "C103", "title": "Types built with the adapter macros behave as their field", "statement": "Every method given to a type by impl_bit_vec_adapter, impl_rank_support_adapter, impl_bit_rank_support_adapter, impl_select1_support_adapter, impl_select0_support_adapter or impl_select_support_adapter answers as the field's does for every argument; contracts of the field carry over; wrapping twice is wrapping once; binary-search select over a wrapper finds what it finds over the field.", "quantifier": "all wrapper types, fields, arguments, nestings", "why_tests_cant": "Three of the macros are exported but never used in the crate or its tests.", "anchors": ["src/macros.rs"]}
{"id": "C104", "title": "Rank directories are allocated once", "statement": "Rank9::new and JacobsonRank::new reserve enough room for their directories in advance: none of the Vecs is reallocated during construction.", "quantifier": "all lawful bit vectors, allocators obeying Vec's contract, both modes and pointer widths", "why_tests_cant": "Reallocation is not visible in results; whether it happens depends on the length modulo the (large) block size and on how entries pack into words.", "anchors": ["src/rank/rank9.rs:Rank9::new", "src/rank/jacobson.rs:JacobsonRank::new"]}
{"id": "C105", "title": "The space tests hold for all sizes", "statement": "A Rank9<Vec<u64>> over at least 118 words takes, with the vector, less than 1.3 times the bytes of the vector (the test tries 1000 to 1049 words of zeros); a JacobsonRank<&[u32]> over at least 1000 words takes less than half of the bytes of the vector (the test allows 1.5 times, for 1000 to 1049 equal words), for every contents and with the directories' real capacities, including a doubling by reallocation.", "quantifier": "all contents, all lengths that fit in memory, allocators that give with_capacity what it asks for and at most double", "why_tests_cant": "All sizes.", "anchors": ["src/rank/rank9.rs:tests::space", "src/rank/jacobson.rs:tests::space", "src/space_usage.rs"]}
{"id": "C106", "title": "The outcome of decoding any finite stream is known", "statement": "For every code and every finite stream of bits, well-formed or not, the value returned, the error reported or the panic, and the bits left in the source are exactly those given: Unary, Gamma, Delta, Omega, Comma(n) for every n, Fibonacci, and Elias and Lift0 of any code. In particular a debug build panics exactly in the given cases: Lift0 when 0 is decoded; Omega when a number from 64 on is followed by a further group (on 64-bit targets and below 2^32 bits; omegaOut gives the rest); Comma when the number does not fit in 64 bits; Fibonacci when the first 92 bits contain no 11 and their sum does not fit in 64 bits.", "quantifier": "all finite streams (fewer than 2^64 bits for Unary), all sources, all builds", "why_tests_cant": "Malformed streams, billions of bits of them; the tests only decode what they encoded.", "anchors": ["src/coding/unary.rs", "src/coding/elias.rs", "src/coding/comma.rs", "src/coding/fib.rs", "src/coding/trans.rs"]}
{"id": "C107", "title": "Overflow checks and debug assertions only add panics", "statement": "For every function of the crate and all arguments: a build with more checks (overflow checks, debug assertions, each of which cargo can set on its own) panics or does exactly what a build of the same target with fewer checks does (return the same value and leave the same state, panic, or fail to return). So a program tested in a debug build without panic behaves the same in a release build or with only one kind of check, and a panic of a build with fewer checks is also one of every build with more. It holds for sequences of calls, for wrappers over any store, source or sink with the property, and for every code.", "quantifier": "all functions, arguments, states (reachable or not), call sequences, stores, sources, sinks, pointer widths", "why_tests_cant": "A relation between two builds of the program over all executions; loops whose bounds depend on wrapped arithmetic could diverge in one only.", "anchors": ["src"]}
{"id": "C108", "title": "Results do not depend on the target", "statement": "Whatever is legal on one target (a length or index in range for its usize) has the same outcome, in either build, on every target with at least as wide pointers: every sequence of BitVector, IntVector and BitBuffer calls (same outputs and same vector, or a panic), iteration, formatting, rank and select over BitVectors (for every index below u64::MAX) and words, and reading and writing of fixed-width blocks. Between any two targets, every code writes the same bits, and what one target encodes the other decodes. The length of an iterator and blocks of type usize do depend on the target.", "quantifier": "all call sequences, contents, codes, value lists, pairs of pointer widths and builds", "why_tests_cant": "A relation between runs on two machines; tests run on one.", "anchors": ["src"]}
{"id": "C109", "title": "Vectors stay correct when memory runs out", "statement": "When allocations may be refused (a panic or abort): any constructor and any sequence of BitVector or IntVector calls, capacity calls included, panics or returns exactly what the list operations return, with no assumption about the lengths reached, provided no allocation exceeds isize::MAX bytes on 32-bit or 2^60 bytes on 64-bit targets, and lengths given to with_fill and resize are not within a block of 2^64 in release builds (C17). Refusals change nothing else: a run that does not fail does what it does with unlimited memory. After a granted with_capacity(n), calls keeping the length at most n need no more memory. A bit vector left by such a run is never too long for Rank9 or JacobsonRank (which needs two bits).", "quantifier": "all call sequences, allocators obeying Vec's contract, sets of refused requests, block and element widths, both modes and pointer widths", "why_tests_cant": "Quantifies over allocators and refusals, and over vectors that fill memory.", "anchors": ["src/internal/vector_base.rs", "src/bit_vec/bit_vector.rs", "src/int_vec/int_vector.rs"]}
{"id": "C110", "title": "Formatting passes on the first error", "statement": "{:b} of a BitVector offers one digit per bit, {:?} of an IntVector the pieces of its text, to the formatter in order; the result is Ok exactly when the formatter takes them all; otherwise formatting ends with the first error (or panic) of the formatter, makes no further call, and what was written is a beginning of the full text.", "quantifier": "all reachable vectors, all formatters (any state, failing at any point), both modes and pointer widths", "why_tests_cant": "Formatters that fail in the middle are never tried by tests.", "anchors": ["src/bit_vec/bit_vector.rs:fmt::Binary", "src/int_vec/int_vector.rs:fmt::Debug"]}
{"id": "C111", "title": "Formatted text determines the value", "statement": "Two BitVectors print the same with {:b}, and with {:?}, exactly when they hold the same bits; two IntVectors, of whatever block types, print the same with {:?} exactly when element width and elements agree. The {:?} text of BitVector, IntVector, iterators, Address, Rank9, BitBuffer and slices determines the value even when more text follows, if that of the vector inside does.", "quantifier": "all pairs of values (any state, reachable or not, for derived Debug), all text following", "why_tests_cant": "Injectivity relates all pairs of values.", "anchors": ["src/bit_vec/bit_vector.rs:fmt::Binary,Debug", "src/int_vec/int_vector.rs:fmt::Debug", "src/internal/vector_base.rs:Debug", "src/rank/rank9.rs:Debug", "src/rank/jacobson.rs:Debug", "src/stream/bit_buffer.rs:Debug", "src/bit_vec/bit_slice.rs:Debug", "src/storage.rs:Address"]}
{"id": "C112", "title": "Growth copies a linear number of blocks", "statement": "If the allocator at least doubles, any sequence of calls, capacity calls excepted, on a new BitVector or IntVector whose contents never exceed n bits reallocates at most log2(blocks)+2 times and copies at most twice as many blocks as n bits need, truncations and pops included; with an allocator that grants exactly what is asked, n block pushes reallocate n times and copy n(n-1)/2 blocks.", "quantifier": "all call sequences, doubling allocators, block and element widths", "why_tests_cant": "Quantifies over call sequences and allocators; reallocations are not observable through the API.", "anchors": ["src/internal/vector_base.rs", "src/bit_vec/bit_vector.rs", "src/int_vec/int_vector.rs"]}
{"id": "C113", "title": "Block-by-block serialisation does not depend on the block type", "statement": "Writing a bit vector's blocks with write_block in little-endian order yields bytes in which byte j holds bits 8j..8j+7 and the rest is zero, whatever the block type; reading them back as blocks of another type with another pointer width and truncating to the length yields the same bits, and fails with UnexpectedEof exactly if that type needs more bytes; with the same type any byte order gives the very same vector; big-endian files are not portable between block types.", "quantifier": "all reachable vectors, pairs of block types, byte orders, both modes and pointer widths", "why_tests_cant": "All contents and all pairs of types.", "anchors": ["src/storage.rs:read_block,write_block", "src/bit_vec/traits.rs:push_block", "src/bit_vec/bit_vector.rs:truncate"]}
{"id": "C114", "title": "Encoded values can be looked up and replaced by position", "statement": "If values are encoded with any code to a BitBuffer over any lawful vector and the position before each is noted, then any sequence of lookups in any order, each a seek and a decode, returns the values asked for; a value whose codeword is as long can be encoded over another in place, after which lookups return it there and every other value unchanged.", "quantifier": "all codes, value lists, lookup sequences, underlying vectors", "why_tests_cant": "Unbounded lists and lookup sequences.", "anchors": ["src/stream/bit_buffer.rs:seek,position", "src/coding"]}
{"id": "C115", "title": "Streams and vectors agree on bit fields", "statement": "Seeking a BitBuffer to a position and calling read_int(m) returns what get_bits returns there, and write_int(m, x) leaves the contents set_bits leaves (for BitVector the very same vector); writing the elements of an IntVector with write_int of the element width to a BitBuffer gives a BitVector with exactly the IntVector's blocks, and read_int over the IntVector itself reads its elements in order and then ends.", "quantifier": "all lawful vectors, positions, widths, element lists, signed and unsigned integer types", "why_tests_cant": "All contents, positions and widths.", "anchors": ["src/stream/traits.rs:read_int,write_int", "src/stream/bit_buffer.rs", "src/int_vec/int_vector.rs"]}
{"id": "C116", "title": "A damaged stream of Fibonacci codewords is back in step after the next value other than 1", "statement": "Any bits at all followed by the Fibonacci codeword of a value other than 1 are a sequence of codewords. Hence in an encoded list the bits of any stretch of values can be replaced by any others, more or fewer: all values before the stretch decode correctly, then come some values (provided that no 92 adjacent bits lack two adjacent ones, as in a codeword too long for a u64), and all values after the first value other than 1 that follows the stretch decode correctly. A run of 1s does not bring the reader back in step, and Gamma codes may never get back in step.", "quantifier": "all lists of values, all replaced stretches, all replacement bits that with the next codeword contain no 92 adjacent bits without two adjacent ones, all lawful sources", "why_tests_cant": "Quantifies over all damage to all streams.", "anchors": ["src/coding/fib.rs:encode,decode", "src/coding/elias.rs"]}
{"id": "C117", "title": "Programs using many objects behave as with lists", "statement": "A program may create any number of BitVectors, IntVectors, BitBuffers, Rank9 and JacobsonRank indices with binary-search select, clone them, convert them into each other and back, change, query, compare, order, print and iterate over them, read and write any of them through slices of slices, read and write fixed-width numbers, and encode any values to them and decode from any position, with any code, in any order. Every call returns what it would if the objects were plain lists (with a cursor for buffers), the program panics exactly where the lists say so, and in the end every object holds the contents its list holds; no call influences an object it is not made on.", "quantifier": "all programs of any length over any number of objects, all block and element widths, all codes, both modes and pointer widths", "why_tests_cant": "Quantifies over all programs; interactions of conversions, clones and different kinds of calls.", "anchors": ["src/bit_vec/bit_vector.rs", "src/int_vec/int_vector.rs", "src/stream/bit_buffer.rs", "src/rank", "src/select/bin_search.rs", "src/coding"]}
{"id": "C118", "title": "Iterators compare and hash by their positions and the vector", "statement": "Iterators over a vector, after any calls of next, next_back and nth, are equal iff the vectors have the same element width and elements and both ends are at the same positions. Their order compares the front position, then the back position, then the vectors; it is total and consistent with equality. Equal iterators return the same for all further calls and hash alike. Unequal iterators feed different bytes to a hasher, neither a prefix of the other. Iterators with the same elements left need not be equal.", "quantifier": "all iterators over all reachable BitVectors and IntVectors after all sequences of calls, all hashers, both modes and pointer widths", "why_tests_cant": "Quantifies over pairs of histories of iterators and over hashers.", "anchors": ["src/internal/vector_base.rs:Iter", "src/bit_vec/bit_vector.rs:Iter", "src/int_vec/int_vector.rs:Iter"]}
{"id": "C119", "title": "The outcome of encoding any value with any code is known, and a failed encoding has not touched the sink", "statement": "Codes can be nested and given any parameters. Encoding any u64 either asks the sink to write exactly the bits of one word and nothing else, or fails with InvalidData, or panics, or hangs; which of these is given by one function of the code and the value. Unless a word is written, nothing has been asked of the sink. With legal parameters, the values a code can represent give their codeword, which decodes to the value whatever follows; of the others, those too large give InvalidData and 0 panics, except that Omega takes 0 for 1.", "quantifier": "all codes and nestings with all parameters, all u64 values, all sinks, both modes", "why_tests_cant": "Quantifies over an unbounded family of codes, over all values and over sinks with arbitrary behaviour.", "anchors": ["src/coding/unary.rs", "src/coding/elias.rs", "src/coding/comma.rs", "src/coding/fib.rs", "src/coding/trans.rs"]}
{"id": "C120", "title": "Exactly which states vectors and buffers can be in", "statement": "A BitVector (a length and blocks) is the result of some constructor and legal calls exactly when the length fits, there are as many blocks as the length needs, and all bits past the length are 0; an IntVector likewise, with the length times the element width for the length and an element width from 1 to the block width. The contents determine the fields and vice versa. Pushing bits or elements one by one onto a new vector reaches every such state. A BitBuffer over a BitVector can be in exactly the states in which the vector is such a vector and the position is at most its length.", "quantifier": "all states, constructors, sequences of legal calls, block and element widths, both modes and pointer widths", "why_tests_cant": "Quantifies over all histories in one direction and over all states in the other: no state outside can ever be reached, none inside is missing.", "anchors": ["src/bit_vec/bit_vector.rs", "src/int_vec/int_vector.rs", "src/internal/vector_base.rs", "src/stream/bit_buffer.rs"]}
{"id": "C121", "title": "Decoding from any source is decided by the bits it delivered", "statement": "Let a source of any kind deliver some bits and then no more, for whatever reason. With every code, nested and with any parameters: if the bits make up a value (or are too much for one), decoding returns it (or reports InvalidData), having asked for exactly the bits that takes, so nothing the source may do later matters. Otherwise one more bit is asked for, and what the source does then is the result: the end of the stream is reported as the end or UnexpectedEof, every error, panic or hanging is passed on unchanged. Outcomes are final: further bits change nothing and stay in the source. A decoder that panics has taken exactly the bits of the shortest prefix of the stream that makes it panic.", "quantifier": "all sources (failing, panicking or hanging at any bit), all finite sequences of bits delivered (fewer than 2^64), all codes and nestings with all parameters, both modes and pointer widths", "why_tests_cant": "Quantifies over sources with arbitrary behaviour and failures at every bit of every stream.", "anchors": ["src/coding/unary.rs", "src/coding/elias.rs", "src/coding/comma.rs", "src/coding/fib.rs", "src/coding/trans.rs", "src/stream/traits.rs:read_int,read_int_be"]}
{"id": "C122", "title": "Programs that catch panics know what is left", "statement": "A program over many objects (see C117) may catch the panic of any of its commands and go on with all objects. There is exactly one way it can run: every command returns or panics as the lists say, also after any number of panics, and a panic leaves every object exactly as it was, except that decoding has consumed from its buffer exactly the bits of the shortest prefix that makes the decoder panic, and that a vector given away to JacobsonRank::new is gone.", "quantifier": "all programs of any length over any number of objects, with panics at any of their commands, all block and element widths, all codes, both modes and pointer widths", "why_tests_cant": "Quantifies over all programs with panics anywhere; states after a caught panic are hardly ever looked at.", "anchors": ["src/bit_vec/bit_vector.rs", "src/int_vec/int_vector.rs", "src/internal/vector_base.rs", "src/stream/bit_buffer.rs", "src/bit_vec/bit_slice.rs", "src/rank/jacobson.rs", "src/coding"]}
{"id": "C123", "title": "A compressed sequence answers queries by number and by bit", "statement": "Encode any list of values with any code to a BitBuffer over any lawful vector, mark the beginning of each codeword in a BitVector of the same length, and index the marks with Rank9 and binary-search select. Then any requests in any order are answered correctly: by number, with the value, or None when there are not as many; by a bit position, with the value whose codeword covers it.", "quantifier": "all codes, value lists, request sequences, underlying vectors, both modes and pointer widths", "why_tests_cant": "Combines encoder, buffer, rank and select; unbounded lists and request sequences.", "anchors": ["src/stream/bit_buffer.rs", "src/rank/rank9.rs", "src/select/bin_search.rs", "src/coding"]}
{"id": "C124", "title": "Changing codes loses nothing", "statement": "Decode values from any source until the end or an error and encode each with another code: for every pair of codes, nested and with any parameters, and any bits at all, the bits written and how it ends (normally, with which error, with a panic, never) are given by one function. If the first decoder accepts only codewords (Unary, Fibonacci, Elias of these, Lift0 of codes without 0), then recoding with the same code copies the stream exactly up to the place where the decoder stops, and recoding with another code and back restores those bits. For encodings of values both codes can represent, there and back is the identity with every pair of codes. Comma streams may lose leading zero digits.", "quantifier": "all pairs of codes, all finite streams well-formed or not, all lawful sources and sinks, both modes and pointer widths", "why_tests_cant": "All malformed streams under all pairs of codes.", "anchors": ["src/coding/unary.rs", "src/coding/elias.rs", "src/coding/comma.rs", "src/coding/fib.rs", "src/coding/trans.rs"]}
{"id": "C125", "title": "Decoding a stream in pieces is decoding it at once", "statement": "A program writes pieces of a stream, as they arrive, at the end of a BitBuffer and after each piece decodes all values it can, setting the cursor back with seek when the decoder runs out of bits. For every code, nested and with any parameters, any bits at all and every division into pieces it delivers exactly the values decoded from the whole stream; it ends waiting with the cursor at the first bit not used, or with InvalidData at the same bit as for the whole stream and with the first piece with which there is an error, or with the same panic. No value is delivered that later bits would change, and a value is delivered with the piece that completes its codeword. Codewords of any values, however divided, give these values and use all bits.", "quantifier": "all codes and nestings with all parameters (but Comma(0)), all bits, all divisions into pieces including empty ones, all vectors under the buffer, both modes and pointer widths", "why_tests_cant": "All divisions of all streams, well-formed or not.", "anchors": ["src/stream/bit_buffer.rs:seek,position,read_bit,write_bit", "src/coding"]}
{"id": "C126", "title": "Building rank directories when memory runs out", "statement": "With an allocator that may refuse any request, Rank9::new and JacobsonRank::new, over any implementation of BitVec, panic or return exactly what they return with unlimited memory; no partially built or wrong directory is ever returned. Rank9::new succeeds exactly if its single request, for ceil(words / 8) + 1 cells, is granted. JacobsonRank::new succeeds, if less memory is granted whenever more is, exactly if the final capacities of its two directories are granted; on a whole number of large blocks only the two first requests count. So a vector built by any calls and then indexed in limited memory panics or answers every rank query as defined, with no assumption on its length.", "quantifier": "all allocators and all patterns of refusal, all BitVec implementations, all block widths, lengths and contents, both modes and pointer widths", "why_tests_cant": "Tests do not run out of memory; every refusal pattern is covered.", "anchors": ["src/rank/rank9.rs:new", "src/rank/jacobson.rs:new"]}
{"id": "C127", "title": "Encoding when memory runs out", "statement": "Omega, Comma and Fibonacci collect what they will write on a Vec. With allocators that may refuse any request, for every code that can be built, every u64 and every sink, the outcome of encoding is determined exactly: the codeword is written, as with unlimited memory, precisely if the requests made for a stack of known height are granted, and otherwise the encoder panics before it has asked anything of the sink. So no codeword is ever written partly for want of memory. The stacks never hold more than 4, 41 and 92 entries; if these are granted nothing changes; Comma(1), which loops forever in unlimited memory, panics in any bounded one. Omega with Vec's growth makes at most one request, for four entries, and none for 0 and 1.", "quantifier": "all codes and nestings with all parameters, all u64 values, all sinks, all allocators and patterns of refusal, both modes and pointer widths", "why_tests_cant": "Tests do not run out of memory; every refusal pattern and every value is covered.", "anchors": ["src/coding/elias.rs:Omega::encode", "src/coding/comma.rs:encode", "src/coding/fib.rs:encode"]}
{"id": "C128", "title": "A bit buffer when memory runs out", "statement": "A BitBuffer over a BitVector, with any allocator that may refuse anything and with no condition on its length: every sequence of reads, writes, seeks and accesses returns exactly what it returns on a file with a cursor that is kept in blocks which have to be asked for, and panics exactly if that file does. Only a write at the end of the last block asks for memory. A new buffer asks once, and then takes as many bits as were reserved without asking again. Encoding any values with any code at its end, the encoders' stacks in limited memory too, has an outcome determined exactly; going back to the start and decoding, if encoding did not panic, returns the values and then the end of the stream.", "quantifier": "all allocators and patterns of refusal, all sequences of calls, all codes and lists of u64 values, all block widths, both modes and pointer widths", "why_tests_cant": "Tests do not run out of memory; every point of failure in every program is covered.", "anchors": ["src/stream/bit_buffer.rs:write_bit,read_bit,seek,with_capacity", "src/internal/vector_base.rs:push_bits", "src/coding"]}
{"id": "C129", "title": "Elias and Lift0 work over any code", "statement": "Elias<H> and Lift0<H> over any implementation H of UniversalCode, also one outside the crate. If H writes and reads codewords for the values in some set, Elias<H> does so for the values whose logarithm is in that set (codeword of the logarithm, then the bits below the highest) and Lift0<H> for the predecessors; detection of truncated codewords and rejection of everything that is no codeword are inherited. Over any H at all, also one that fails or panics, encoding is encoding the logarithm and then writing the remaining bits, and what H makes of a finite stream decides what Elias and Lift0 make of it. Every code that writes and reads codewords is prefix free, uniquely decodable and satisfies Kraft's inequality, and streams of its codewords decode to the values.", "quantifier": "all implementations of UniversalCode with any set of representable values, all u64 values, all sinks and sources, both modes and pointer widths", "why_tests_cant": "UniversalCode is a public trait; tests only instantiate Elias and Lift0 with the codes of the crate.", "anchors": ["src/coding/elias.rs:Elias", "src/coding/trans.rs:Lift0", "src/coding/traits.rs:UniversalCode"]}
{"id": "C130", "title": "Whether more bits can complete a stream", "statement": "Ok(None) and UnexpectedEof mean that the bits ran out. Exactly when further bits can make the decoder return a value, and how many are enough: Unary always, 1 bit; GAMMA 64 bits, never after 64 zeros; DELTA 70 bits, never after 7 zeros, or 6 zeros, a one and another one among the next 6 bits; Fibonacci 2 bits, never after 91 bits ending in a zero; Comma(n) fewer than 2n bits, never, with overflow checks, once a digit that cannot be the comma any more makes the number too large; Omega exactly the rest of the group and one bit, never, with overflow checks, once a group of 64 or more bits is announced; Elias over any code exactly if the header can be completed to a number below 64; Lift0 over any code exactly if that can be completed (to a number other than 0, with overflow checks).", "quantifier": "all finite bit streams, all codes (any parameter, any nesting), all lawful sources, both modes and pointer widths", "why_tests_cant": "That no continuation whatever decodes is a statement about infinitely many streams.", "anchors": ["src/coding/unary.rs:decode", "src/coding/elias.rs:decode", "src/coding/comma.rs:decode", "src/coding/fib.rs:decode", "src/coding/trans.rs:decode"]}
{"id": "C131", "title": "Unary and Comma find their place again after damage", "statement": "Encode ws, mid, v, vs one after the other and replace what was written for mid. Unary, by any bits, more or fewer: decoding returns ws, then one value per one among these bits and one more, then exactly vs and the end. Comma(n), 2 <= n <= 63, by bits whose number is a multiple of n (so in particular for any changed bits): ws, then at least one value and at most one per n bits and one more (exactly one per comma and one more), then exactly vs and the end; with overflow checks it may panic instead, but only after ws. If a single bit is lost, Comma(2) may never find its place: a stream of 2s decodes as 0, 1, 1, 1, ...", "quantifier": "all sequences of values, all foreign bits, all lengths, all n from 2 to 63, both modes and pointer widths, all lawful sources", "why_tests_cant": "Any damage at any place in any stream; and that the decoder never recovers is a statement about streams of every length.", "anchors": ["src/coding/unary.rs:decode", "src/coding/comma.rs:decode"]}
{"id": "C132", "title": "The universal codes are universal", "statement": "The crate calls its codes universal codes. For a sequence of positive values in which no value is more frequent than a smaller one, with n values and empirical entropy H (in bits) per value, encoding the sequence writes at most: GAMMA n(2H + 1) bits; DELTA n(H + 2 log2(1 + H) + 1); Omega n(5/2 H + 1) and n(H + 5/2 log2(1 + H) + 2); Fibonacci n(H log_phi 2 + 2), where log_phi 2 = 1.44...; Comma(b), 2 <= b <= 63, n(H b / log2(2^b - 1) + 2b). For any sequence, every code of the crate, and any combination of Elias and Lift0, writes at least nH bits. Unary is not universal: the values 1 to 2^k have entropy k, and Unary writes (2^k + 3)/2 bits per value.", "quantifier": "all finite sequences of values the code can encode (upper bounds: with small values frequent), both modes and pointer widths", "why_tests_cant": "A relation between the bits written and a real-valued information measure, for all sequences; a test compares single sequences.", "anchors": ["src/coding/mod.rs:1", "src/coding/elias.rs:encode", "src/coding/fib.rs:encode", "src/coding/comma.rs:encode", "src/coding/unary.rs:encode", "src/coding/trans.rs:encode"]}
{"id": "C133", "title": "A minimal implementation of the bit-vector traits is a complete one", "statement": "The traits document a minimal complete definition: get_bit or get_block for BitVec, set_bit or set_block for BitVecMut, push_bit and pop_bit for BitVecPush. For every user type: if bit_len and get_bit are right, then block_len, get_block (zero beyond the end) and get_bits are right and panic when they should; likewise if bit_len and get_block are right; set_bit alone or set_block alone gives right set_bits, set_block and set_bit over any right way of reading; push_bit and pop_bit alone give right align_block and push_block. Deriving get_bit from get_block and get_block back from that returns the original block with the bits beyond the end cleared. An implementation that gives neither method of a pair also compiles: every access in bounds then never returns, and every access out of bounds panics.", "quantifier": "all user types and their states, all block types, positions, counts, values, both modes and pointer widths; vectors whose block count fits a usize", "why_tests_cant": "It quantifies over all types a user could write; a test has to pick one.", "anchors": ["src/bit_vec/traits.rs:BitVec", "src/bit_vec/traits.rs:BitVecMut", "src/bit_vec/traits.rs:BitVecPush"]}
{"id": "C134", "title": "Search and select work at every type", "statement": "binary_search_function is generic over any primitive integer domain and any ordered result, and select over any alphabet. At every signed or unsigned primitive integer type: the average of two values is the exact mean rounded down, without overflow; for every monotone f into any ordered type the search finds the least point of the interval at which f reaches the value; for any f whatever (which may panic) and any answers of >= and <, the search ends, depends only on f inside the interval, and a point it returns is in the interval, reaches the value, and is the start or preceded by a point that does not. Select by binary search over any lawful rank structure over any alphabet finds the k-th occurrence of any symbol or reports that there is none, and is inverse to rank; at k = u64::MAX it panics in debug builds and returns Some(0) in release builds on non-empty sequences.", "quantifier": "all primitive integer types, result types, orders, functions, intervals, values; all alphabets, rank structures, symbols, k; both modes", "why_tests_cant": "It quantifies over types; the crate's tests use usize and i32 averages, usize searches and bool alphabets.", "anchors": ["src/internal/search.rs:average", "src/internal/search.rs:binary_search_function", "src/select/bin_search.rs:select", "src/rank/traits.rs:RankSupport"]}
{"id": "C135", "title": "Which code is shortest for which values", "statement": "For every pair of the codes GAMMA, DELTA, Omega, Fibonacci and COMMA, and for each of them against a plain 64-bit word, all values v >= 1 are listed for which the codeword that encode writes is shorter, as long, or longer. For example DELTA is shorter than GAMMA exactly from 32 on, Omega shorter than GAMMA exactly from 128 on, Omega is shorter than DELTA exactly on 2-3, 8-15 and 2^15 to 2^16 - 1, GAMMA is shorter than Fibonacci exactly at 1 and 3, DELTA is shorter than Fibonacci everywhere from fib 28 = 317811 on, and GAMMA, DELTA, Omega, Fibonacci and COMMA are shorter than 64 bits exactly below 2^32, 2^53, 2^51, fib 64 and 3^30. Unary is never shorter than GAMMA or Fibonacci, and shorter than DELTA only at 2, than Omega only at 4, than COMMA only up to 4.", "quantifier": "all pairs of codes and all values from 1 to the largest both can encode; both modes and pointer widths", "why_tests_cant": "It compares two codes on all 2^64 values; tests compare neither lengths nor codes.", "anchors": ["src/coding/elias.rs:encode", "src/coding/fib.rs:encode", "src/coding/comma.rs:encode", "src/coding/unary.rs:encode"]}
{"id": "C136", "title": "Standard iterator adaptors work on the iterators of the crate", "statement": "The adaptors rev, skip, take and step_by of the standard library, stacked in any order over the iterators of BitVector and IntVector, give what reversing, dropping, taking and choosing every k-th element give on lists. Going forward (next, nth, collect) this holds without conditions, also for rev directly on an iterator. In both directions and with exact lengths it holds as long as nothing is skipped past the end: for take and rev always, for skip(n) if there are n elements, for step_by from the back if the iterator is not empty, its length exact and, for nth_back(n), there are more than n elements. The adaptors only call nth and nth_back with arguments that fit usize, whatever they are given. Where something is skipped past the end, the items are still right but len, and with it next_back of skip and step_by, panics with overflow checks and is wrong without.", "quantifier": "all vectors, block types, element widths, stacks of adaptors and their arguments, interleavings of calls; both modes and pointer widths", "why_tests_cant": "Stacks of adaptors, arguments and interleavings are unbounded; the crate's tests use next, next_back and nth on single short vectors.", "anchors": ["src/internal/vector_base.rs:Iter", "src/bit_vec/bit_vector.rs:Iter", "src/int_vec/int_vector.rs:Iter"]}
{"id": "C137", "title": "Generic code works over vectors whose reading methods change hidden state", "statement": "The reading methods of the traits take &self, but an implementation may change hidden state behind it (a cache in a Cell, counters). If two vectors cannot be told apart by sequences of calls, neither can anything generic built over them: the default methods, slices, Jacobson and Rank9 structures (their construction and all queries), select structures, and buffers read, written or used as vectors. In particular, over a vector with hidden state that cannot be told from a lawful one, rank structures give the right answer to every question of every sequence, select is right whatever was asked before, and encoding into a buffer and decoding gives the values back. A vector caching the block it read last, and emptying the cache when changed, is such a vector.", "quantifier": "all implementations of BitVec, BitVecMut and BitVecPush with state of any type; all relations under which they cannot be told apart; all sequences of calls; all block types, both modes and pointer widths", "why_tests_cant": "It quantifies over implementations of the traits outside the crate, with arbitrary hidden state, and over all sequences of calls; tests run a few implementations, none of them with hidden state.", "anchors": ["src/bit_vec/traits.rs:BitVec", "src/bit_vec/bit_slice.rs:BitSlice", "src/rank/jacobson.rs:JacobsonRank", "src/rank/rank9.rs:Rank9", "src/select/bin_search.rs:BinSearchSelect", "src/stream/bit_buffer.rs:BitBuffer"]}
{"id": "C138", "title": "Exactly which calls generic code makes on its vector", "statement": "Building a Rank9 calls block_len twice, then get_block once for each block from first to last, then block_len again; building Jacobson's structure calls bit_len and block_len once and get_block once for each block from first to last. A rank1 query of a Rank9 makes a single call, get_block of the block of the position; of Jacobson's structure bit_len and that get_block. The default get_bit calls bit_len and one get_block; the default get_bits bit_len and one get_block, or two if the bits cross a block boundary. The default set_bit and set_bits read and then write the same blocks, both reads before the writes; the default get_block calls block_len, and for each bit bit_len and, unless past the end, get_bit. A slice passes each read on as one call of its base, and taking a slice calls bit_len twice. A select query over a Rank9 calls bit_len once and get_block at most 2k+1 times if there are at most 2^k bits. Reading a bit from a buffer calls bit_len once at the end, and otherwise twice, followed by one get_block. No other call is made, so a rank query costs a bounded number of calls whatever the size of the vector.", "quantifier": "all implementations of BitVec and BitVecMut (for select: lawful ones), all vectors, positions and previous calls; all block types, both modes and pointer widths", "why_tests_cant": "It is about every call of an abstract method on every run; tests see results, not calls.", "anchors": ["src/rank/rank9.rs:new", "src/rank/rank9.rs:rank1", "src/rank/jacobson.rs:new", "src/rank/jacobson.rs:rank1", "src/bit_vec/traits.rs:get_bit", "src/bit_vec/traits.rs:get_bits", "src/bit_vec/traits.rs:get_block", "src/bit_vec/traits.rs:set_bit", "src/bit_vec/traits.rs:set_bits", "src/bit_vec/bit_slice.rs:BitSlice", "src/select/bin_search.rs:select", "src/stream/bit_buffer.rs:read_bit"]}
{"id": "C139", "title": "A block type must have a power of two of bits", "statement": "BlockType is a public trait, and a type of any size may implement it. lg_nbits is the logarithm of the width rounded down, and Address::new gives the block and the place in the block of every bit exactly if the width is a power of two. For every other width, between 2^k and 2^(k+1), the methods contradict one another: after BitVector::with_fill(2^k + 1, false) and set_bit(2^k, true), get_bit(2^k) is true while get_bits(0, 2^k + 1) is 0. All other properties hold for every power of two from 8 to 65536, not just for the block types of the crate.", "quantifier": "all widths below 2^30 (2^31 for the address), both modes and pointer widths", "why_tests_cant": "It is about block types that do not exist in the crate; its tests use only the built-in ones.", "anchors": ["src/storage.rs:lg_nbits", "src/storage.rs:Address", "src/storage.rs:BlockType", "src/bit_vec/traits.rs:get_bits", "src/bit_vec/bit_vector.rs:with_fill"]}
{"id": "C140", "title": "After one wrong bit, Gamma, Delta and Omega may never find their place again", "statement": "Write 2n + 1 times the value 2^(m+1) + lo with lo < 2^m in Gamma code and remove the first bit: decoding returns 2^m + lo and 2^(m+2) + lo in turn to the end, never the value written, and leaves one bit over. Write n + 1 times 12 in Delta code and remove the first bit: decoding returns 2 and then n times 9, leaving three bits over. Write n + 1 times 9 in Omega code and remove the first bit: decoding returns 3 and then n times 1, 7, leaving three bits over. If the first bit is changed instead of removed, decoding returns the same after a 1. So no bound on the damage, as C116 and C131 give for Fibonacci, Unary and Comma, exists for these codes.", "quantifier": "all numbers of copies n, all m <= 61 and lo < 2^m (Gamma), both modes and pointer widths", "why_tests_cant": "It is about streams of every length; a test sees one.", "anchors": ["src/coding/elias.rs:Elias", "src/coding/elias.rs:Omega", "src/coding/traits.rs:UniversalCode"]}
{"id": "C141", "title": "The block type is only a choice of representation", "statement": "Take two programs (in the sense of C117: any number of bit vectors, integer vectors, bit buffers and rank structures, used in any order) that make the same calls but on vectors with other block types. If they stay away from calls that name blocks (such as push_block, block_len or block_resize) and from cmp, then either both panic or both run to the end, and then every call has returned the same, with blocks read as numbers, and all objects have the same contents. The exceptions are needed: cmp of two vectors of nine bits is Greater with u8 blocks and Less with u64 blocks.", "quantifier": "all pairs of programs that differ in the block types only and whose arguments fit either block type, all one-to-one maps between block types, all block types of 8 to 65536 bits, both modes and pointer widths", "why_tests_cant": "It relates two runs of every program; tests are instantiated with one block type.", "anchors": ["src/bit_vec/bit_vector.rs:BitVector", "src/int_vec/int_vector.rs:IntVector", "src/storage.rs:BlockType", "src/stream/bit_buffer.rs:BitBuffer"]}
{"id": "C142", "title": "Which share of all bit streams each code can decode", "statement": "Count the streams of M bits that start with what encode writes for some value: for Unary, gamma and any other code the number is 2^M times the sum of 2^-length over the codewords, and that sum is known exactly. Unary: 1 - 2^-k for the values below k. Gamma: 1 - 2^-k for 1 <= v < 2^k. An Elias code with any header: the sum of the headers. Delta for all u64: 8065/8192. Omega for all u64: 121/128. Comma(n): 1 - 2^-n in the limit, no more, as leading zero digits are never written. Fibonacci: 1 - fib(k+3)/2^(k+1). For Unary, gamma, delta and Fibonacci (and Omega in debug builds for 64-bit targets) this is the exact number of streams from which decode returns a value: 2^M - 1, 2^M - 2^(M-64), 2^M - 127*2^(M-13), 2^M - fib(94)*2^(M-92) and 2^M - 7*2^(M-7).", "quantifier": "all stream lengths M from the longest codeword on, below 2^64 (2^32 for Omega); all bounds k on the values; all Elias headers; both modes and pointer widths (except for decoding Omega)", "why_tests_cant": "The sums have 2^64 terms and the counts range over at least 2^76 streams.", "anchors": ["src/coding/elias.rs:Elias", "src/coding/fib.rs:Fibonacci", "src/coding/comma.rs:Comma", "src/coding/unary.rs:Unary", "src/coding/traits.rs:UniversalCode"]}
{"id": "C143", "title": "The order of writes matters only where they overlap", "statement": "Take any sequence of set_bit, set_bits and set_block calls within the contract on any bit vector that keeps the contract of the traits (slices, which do not keep that of set_block, included for the other two). Afterwards each bit is what the last call that reaches it has put there, or what it was before. So two sequences in which the last calls agree at every bit leave the same contents, calls that do not overlap may be made in any order, and for BitVector the results are equal as values. The same holds for set on the elements of an IntVector.", "quantifier": "all lawful bit vectors and contents, all sequences of calls in range, all permutations of calls that do not overlap; all reachable BitVectors and IntVectors, all block types of 8 to 65536 bits, both modes and pointer widths", "why_tests_cant": "It relates two runs for every sequence of calls; tests make the calls in one order.", "anchors": ["src/bit_vec/traits.rs:BitVecMut", "src/bit_vec/bit_vector.rs:BitVector", "src/int_vec/int_vector.rs:IntVector", "src/bit_vec/bit_slice.rs:BitSliceMut"]}
{"id": "C144", "title": "Rank9 and JacobsonRank are interchangeable", "statement": "Take two programs (in the sense of C117) that differ only in that the one makes a Rank9 wherever the other makes a JacobsonRank. If the one with Rank9 runs to the end then either so does the other, every call has returned the same, and all objects have the same contents; or the other panics, and does so where it makes a JacobsonRank of fewer than two bits. If the one with JacobsonRank runs to the end then so does the one with Rank9, with the same results (vectors having blocks of 64 bits, which the type of Rank9 requires). The exception is needed: one can make a Rank9 of a single bit but no JacobsonRank.", "quantifier": "all pairs of programs that differ in the kind of index at any number of places, both modes and pointer widths", "why_tests_cant": "It relates two runs of every program; the tests of the two structures are separate.", "anchors": ["src/rank/rank9.rs:Rank9", "src/rank/jacobson.rs:JacobsonRank", "src/select/bin_search.rs:BinSearchSelect"]}
{"id": "C145", "title": "The documented departures from the paper were needed", "statement": "The documentation of the module broadword lists three corrections to the paper it implements, and each is right. (1) If the last multiplication of Algorithm 1 did not wrap, count_ones would, with overflow checks, panic for exactly the words with a one above the lowest byte, and no other operation of it can overflow. (2) With the constant printed in the paper, cut to 64 bits, the result for a word with fewer than 16 ones is 16 times the number of ones above the lowest four bits, which is wrong for all of them but 0. (3) With the second line of Algorithm 2 as printed, the algorithm is the same as the code for words without a one at a position 3, 7, 11, ..., 63; for every other word it is wrong: asked for the one after the last, it returns a position of at most 64 where select1_raw returns 72 (not found).", "quantifier": "all 2^64 words (for the constant: those with fewer than 16 ones), both modes and pointer widths", "why_tests_cant": "The claims are about programs that are not in the crate, and range over all words.", "anchors": ["src/broadword.rs:count_ones", "src/broadword.rs:select1_raw"]}
{"id": "C146", "title": "Where the documentation comments disagree with the code", "statement": "(1) get_random and set_random are documented to check against the end of the support array; they panic for bits past the last element, which the support array holds exactly when the elements do not fill its last block. (2) A value too large for the width is documented to panic in debug mode only (set_random) or perhaps (set); set, set_random and push panic in all builds, while with_fill and resize accept it and store its low bits. (3) The comments on ceil_div_nbits and checked_ceil_div_nbits are exchanged: the one said not to check returns None exactly for the counts that do not fit a usize, for which the other returns a wrong count. (4) reserve is documented to differ from reserve_exact when the capacity suffices; then neither changes anything, nor do the block versions.", "quantifier": "all reachable vectors, offsets, widths, indices, values, lengths, capacities, lawful allocators, both modes and pointer widths", "why_tests_cant": "The claims range over all vectors and arguments; (3) needs bit counts of 2^35 and more on 32-bit targets.", "anchors": ["src/int_vec/int_vector.rs:get_random", "src/int_vec/int_vector.rs:set_random", "src/int_vec/int_vector.rs:reserve_exact", "src/storage.rs:ceil_div_nbits", "src/storage.rs:checked_ceil_div_nbits"]}
{"id": "C147", "title": "Text formatted with options still determines the value, unless padding runs into the digits", "statement": "With all format options ({:#?}, width, fill, alignment, +, 0, x?, X?): the text of a number inside a derived Debug tells the number and where it ends, except exactly when the fill character is a digit of the base, the width leaves room for it, no zero flag is given, and it stands behind the digits or directly before them (where zeros do no harm). Outside that case the text of BitVector, the iterators, Address, BitBuffer, slices, Rank9 and JacobsonRank determines the value, with any text behind it, even if the fill character is a bracket, comma or newline; in that case two different addresses print the same. Without options the text is the one of C111.", "quantifier": "all options (any width and fill character), vectors in any state, iterators, addresses, buffers, slices and rank structures over anything whose text determines it", "why_tests_cant": "Options, fill characters and values are unbounded; the exception depends on digits meeting padding.", "anchors": ["src/bit_vec/bit_vector.rs:BitVector", "src/internal/vector_base.rs:VectorBase", "src/storage.rs:Address", "src/rank/jacobson.rs:JacobsonRank", "src/rank/rank9.rs:Rank9", "src/int_vec/int_vector.rs:fmt"]}
{"id": "C148", "title": "The number of rank queries of select depends on the length and the answer only; its average is 3/2 lg n", "statement": "BinSearchSelect::select(v, idx) asks the same number of rank queries on any two vectors of the same length whenever the answers agree (found at the same position, or not found), whatever the other bits, v, idx, the rank structure, build and target. Summed over all n positions of a vector (each asked for by the bit that is there), the number of queries is exactly 3k\u00b72^(k-1) + 1 for n = 2^k, and for all n at least 3/2\u00b7n\u00b7\u230alg n\u230b + 1 and at most 3/2\u00b7n\u00b7\u2308lg n\u2309 + (n+1)/2.", "quantifier": "all lawful rank structures over vectors of any length, both bit values, all indices below 2^64 - 1, all builds and targets", "why_tests_cant": "Timing tests see neither the independence from the bits nor an average over all positions of all vectors.", "anchors": ["src/internal/search.rs:binary_search_function", "src/select/bin_search.rs:BinSearchSelect"]}
{"id": "C149", "title": "What the rank directories contain", "statement": "Rank9::new stores, for each 512 bits, the number of ones before them and, in seven fields of nine bits, the number of ones from there to each further word (zero past the end). JacobsonRank::new stores the number of ones before each large block (of the least number of blocks with at least \u2308lg n\u2309\u00b2 bits) and in all, and the number of ones from the beginning of the large block to each block and to the end. Two vectors of the same length have equal directories exactly if each block has the same number of ones in both; so the directory depends on the bits only, not on the type of the vector, the build or the target.", "quantifier": "all lawful bit vectors (any type) whose padding reads as zero, all lengths the target can hold, all block types, all builds and targets", "why_tests_cant": "Tests query the structure; an entry that is wrong but never read, or a directory that depends on the build, does not show.", "anchors": ["src/rank/rank9.rs:Rank9::new", "src/rank/jacobson.rs:JacobsonRank::new"]}
{"id": "C150", "title": "JacobsonRank over vectors with extra bits in the last block", "statement": "The documentation of get_block says that the last block contains extra bits that are not part of the vector, not that they are zero. Over any vector that keeps the trait's laws, whatever its extra bits, JacobsonRank::new gives a structure all of whose answers are right.", "quantifier": "all lawful bit vectors (any type) with any extra bits in the last block, of two bits or more, all lengths the target can hold, all block types, all builds and targets", "why_tests_cant": "Every vector of the crate has zeros behind its end, so no test has any other.", "anchors": ["src/rank/jacobson.rs:JacobsonRank::new", "src/bit_vec/traits.rs:BitVec::get_block"]}
{"id": "C151", "title": "Coders over streams with integer methods of their own", "statement": "read_int, read_int_be, write_int and write_int_be are default methods, which a source or sink outside the crate may replace. For every code of the crate: over the default methods the coder is the one of the other properties; if every method of one stream does what the method of another does, so do encode and decode, panics and errors included; decoding from any source whose methods read as they should gives, for any bits whatsoever, what decoding the same bits from a VecDeque<bool> gives; and encoding to any sink whose methods write as they should appends the codeword, so that values round-trip.", "quantifier": "all codes (Unary, Elias over any header, Gamma, Delta, Omega, Comma, Fibonacci, Lift0), all sources and sinks with any integer methods, all bit streams, all values, all builds and targets", "why_tests_cant": "No test uses a stream with integer methods of its own.", "anchors": ["src/stream/traits.rs:BitRead::read_int", "src/stream/traits.rs:BitRead::read_int_be", "src/stream/traits.rs:BitWrite::write_int", "src/stream/traits.rs:BitWrite::write_int_be", "src/coding/elias.rs:Elias::decode", "src/coding/elias.rs:Omega::decode", "src/coding/comma.rs:Comma::decode"]}
{"id": "C152", "title": "Vectors, rank and select over block types with methods of their own", "statement": "All methods of BlockType but nbits and the two for I/O have default bodies that compute them in a particular way, and an implementation may replace them. If the replacements return the right value on arguments in range (and whatever they like elsewhere), then every method of BitVector, IntVector, vectors of blocks, slices, iterators, JacobsonRank and BinSearchSelect does what it does over the methods of the crate: bit vectors are lists of booleans and integer vectors lists of numbers under any sequence of calls, panicking exactly when the list operation is out of range; rank and select structures can be built and answer correctly. The methods of the crate are such methods, and so are the default bodies over any low_mask that returns masks. None of the requirements can be dropped.", "quantifier": "all block types of 8 to 65536 bits with any lawful methods, all constructors and sequences of calls, all vectors lawful in reading for rank and select, all builds and targets", "why_tests_cant": "The only block types in the tests are the built-in integers, which replace nothing but low_mask.", "anchors": ["src/storage.rs:BlockType", "src/storage.rs:BlockType::low_mask", "src/storage.rs:BlockType::get_bits", "src/storage.rs:BlockType::with_bits", "src/storage.rs:BlockType::last_block_bits", "src/storage.rs:fn_low_mask", "src/internal/vector_base.rs:VectorBase", "src/bit_vec/bit_vector.rs:BitVector", "src/int_vec/int_vector.rs:IntVector", "src/rank/jacobson.rs:JacobsonRank::new", "src/select/bin_search.rs:BinSearchSelect"]}
{"id": "C153", "title": "Rank and select over a vector that has changed behind the structure", "statement": "A bit store with interior mutability can change while a Rank9 or JacobsonRank over it exists. If the directory was built over old and the vector now holds new: rank1, rank0 and rank at a position inside both never panic and answer as for the vector that agrees with old before the block of the position and with new from there on; the answer is off by at most the number of bits that changed before that block. With the length unchanged, all ranks are right for new exactly if every block but the last has as many ones as before. Select by binary search ends without panic at a place where the answer of rank passes k, which holds the value looked for unless it is the first place of a block, or with None if the answer at the last place is at most k.", "quantifier": "all lawful bit vectors (any type), all old and new contents, all positions inside both, all k below u64::MAX, all block types for JacobsonRank (old of at least two bits, as its constructor panics below that), all builds and targets", "why_tests_cant": "No test changes a vector under a rank structure; the claim relates two arbitrary contents.", "anchors": ["src/rank/rank9.rs:Rank9::rank1", "src/rank/jacobson.rs:JacobsonRank::rank1", "src/rank/traits.rs:BitRankSupport::rank0", "src/select/bin_search.rs:BinSearchSelect", "src/internal/search.rs:binary_search_function"]}
{"id": "C154", "title": "Integers may be transferred in pieces", "statement": "read_int(a + b) is read_int(a), read_int(b) and lo | hi << a, and read_int_be(a + b) is the same with the upper piece first and hi << b | lo, for every source and every outcome: failures, panics, a source that ends before the first piece (None) or later (UnexpectedEof). write_int(a + b, v) is write_int(a, v) and write_int(b, v >> a), write_int_be(a + b, v) is write_int_be(a, v >> b) and write_int_be(b, v), for every sink, failing ones included; for write_int_be of a signed type in full width only the pieces are right. get_bits and set_bits may be divided in the same way for every bit vector that keeps the contract, and a BitVector is then the same value.", "quantifier": "all sources and sinks (also failing and panicking ones), all integer types signed and unsigned, all numbers of bits a below the width (for write_int_be a, b at least 1 and a + b at most the width, below it for signed types), any b, all values; all lawful bit vectors and all spans within the contract; all builds and targets", "why_tests_cant": "The unit tests never read or write one number by two calls, and use no failing stream.", "anchors": ["src/stream/traits.rs:BitRead::read_int", "src/stream/traits.rs:BitRead::read_int_be", "src/stream/traits.rs:BitWrite::write_int", "src/stream/traits.rs:BitWrite::write_int_be", "src/bit_vec/traits.rs:BitVec::get_bits", "src/bit_vec/traits.rs:BitVecMut::set_bits"]}
{"id": "C155", "title": "Neighbours, counts and lists of positions from rank and select", "statement": "For every rank structure over a vector and binary-search select on it, and v true or false: select(rank(p, v) - 1, v), with None if the rank is 0, is the last place up to p that holds v; select(rank(p - 1, v), v), with rank 0 if p = 0, is the first place from p on that holds v, or None if there is none; the difference of the two ranks is the number of places in a .. b that hold v; and asking select(0, v), select(1, v), ... until None lists exactly the places that hold v, in ascending order. No call panics.", "quantifier": "all lawful rank structures (words, Broadword, Rank9, JacobsonRank and user-defined ones) over all contents, all positions p inside, all a <= b up to the length, both values; for the list a length of at most 2^64 - 2; all builds and targets", "why_tests_cant": "The tests of select compare with rank at single positions; finding neighbours combines both for arbitrary contents, at the ends and in vectors without any v.", "anchors": ["src/select/bin_search.rs:BinSearchSelect::select", "src/rank/traits.rs:RankSupport::rank", "src/rank/rank9.rs:Rank9::rank1", "src/rank/jacobson.rs:JacobsonRank::rank1"]}
{"id": "C156", "title": "Bitwise operations and counts may be done block by block", "statement": "For two vectors of the same length and block type, replacing block i of the first by f(a.get_block(i), b.get_block(i)) with set_block, for all i, replaces each bit by g of the two bits, for every f that works bit by bit as g (and, or, xor, difference, complement, ...), even if f sets unused bits of the last block; a BitVector is then exactly the vector with the combined bits. If unused bits read as zeros (they do for BitVector, IntVector and arrays of blocks) and g keeps zeros, the sum of count_ones of f of the blocks is the number of ones of the combined bits: the ones of one vector, or the number of places where two differ.", "quantifier": "all lawful bit vectors a (with set_block) and b, of any two types with the same block type, all contents of equal length, all bitwise operations; all builds and targets", "why_tests_cant": "The tests never combine two vectors; the claim depends on what get_block and set_block do with the last block for every length.", "anchors": ["src/bit_vec/traits.rs:BitVec::get_block", "src/bit_vec/traits.rs:BitVecMut::set_block", "src/internal/vector_base.rs:VectorBase::set_block", "src/bit_vec/bit_vector.rs:BitVector"]}
{"id": "C157", "title": "Sorted sequences can be kept in an IntVector and a BitVector under rank and select", "statement": "A program that keeps a sorted sequence of n u64 as Elias and Fano do - the lower l bits (1 <= l <= 63) of each in an IntVector, the upper bits in unary in a BitVector<u64> under Rank9 and BinSearchSelect - gets element i as (select1(i) - i) << l | lows.get(i), gets none for i >= n, and counts the elements below any x by select0 and a scan; the vectors hold exactly n*l and n + (last >> l) bits. No step panics or wraps.", "quantifier": "all sorted lists of u64, with repetitions, whose vectors fit in memory; all l from 1 to 63, all i below 2^64 - 1, all x; all builds and targets", "why_tests_cant": "The claim is about all sequences and about five components together: push, get, push_bit, rank and select; a test sees one sequence at a time.", "anchors": ["src/int_vec/int_vector.rs:IntVector::push", "src/int_vec/int_vector.rs:IntVector::get", "src/bit_vec/bit_vector.rs:BitVector::push_bit", "src/rank/rank9.rs:Rank9::new", "src/select/bin_search.rs:BinSearchSelect::select1", "src/select/bin_search.rs:BinSearchSelect::select0"]}
{"id": "C158", "title": "The blocks of one vector can be written to a file and read into another", "statement": "Writing get_block(i) with write_block for all i, and then calling set_block(i, read_block()) on a second vector of as many bits, makes the second hold the bits of the first: for blocks of the same type in either byte order (and then what follows in the file is left), and in little-endian order also for different block types, where reading fails with UnexpectedEof exactly if the blocks of the second vector take more room. The types of the vectors do not matter, nor what the unused bits of the last block hold. An IntVector of n elements of k bits is restored this way from IntVector::with_fill(k, n, 0), with the same elements; with the same block type it is equal to the one written.", "quantifier": "all lawful vectors (BitVector, IntVector, Vec<Block>, Vec<bool>, unsigned integers, ...), all contents, all block types of the crate for either side, all lawful sinks and sources; all builds and targets on either side", "why_tests_cant": "It relates two vectors of any two types, two block types and two machines; the tests write and read single blocks.", "anchors": ["src/storage.rs:BlockType::write_block", "src/storage.rs:BlockType::read_block", "src/bit_vec/traits.rs:BitVec::get_block", "src/bit_vec/traits.rs:BitVecMut::set_block", "src/int_vec/int_vector.rs:IntVector::with_fill"]}
{"id": "C159", "title": "Sequences of numbers can be kept as bit vectors under rank and searched by place, number and order", "statement": "A program that keeps a sequence of n numbers below 2^k as a wavelet matrix - for each bit, from the highest down, a BitVector<u64> of that bit of every number under Rank9, the numbers being stably parted by the bit before the next level - gets number i with k get_bit and k rank calls, counts the occurrences of any x below 2^k in any range, and finds the j-th number of any range in increasing order. No step panics or wraps.", "quantifier": "all k up to 64, all lists of numbers below 2^k whose vectors fit in memory, all ranges lo <= hi <= n, all places, all x below 2^k and all j below hi - lo; all builds and targets", "why_tests_cant": "The claim is about all sequences and all ranges: an error of rank at one block boundary shows only in sequences whose parting puts a range end there.", "anchors": ["src/rank/rank9.rs:Rank9::new", "src/rank/rank9.rs:Rank9::rank1", "src/rank/traits.rs:BitRankSupport::rank0", "src/bit_vec/bit_vector.rs:BitVector::push_bit", "src/storage.rs:BlockType::get_bit"]}
{"id": "C160", "title": "The order of codewords is the order of the values", "statement": "For Unary, Fibonacci, every Elias code (so Gamma and Delta) and Lift0 over these, u < v if and only if the codeword of u is shorter than that of v, or as long and less as a number whose least significant bit comes first; for Omega likewise with the first differing bit deciding; for Comma(n) with the first differing block of n bits deciding. So BitVectors each holding one encoded value compare (derived Ord) as the values do, if the codewords fit in one block, and for Comma(n) in blocks of n bits whatever their length. Otherwise they may not: counterexamples for Gamma over two blocks, Omega, and Comma with another block size.", "quantifier": "all values each code can encode, all nestings of Elias and Lift0, all block types, builds and targets", "why_tests_cant": "Order is a relation between all pairs of values; tests compare a few neighbours, and the bit order within codewords differs between the codes.", "anchors": ["src/coding/traits.rs:UniversalCode::encode", "src/coding/elias.rs:Elias::encode", "src/coding/elias.rs:Omega::encode", "src/coding/comma.rs:Comma::encode", "src/coding/fib.rs:Fibonacci::encode", "src/coding/unary.rs:Unary::encode", "src/coding/trans.rs:Lift0::encode", "src/internal/vector_base.rs:VectorBase"]}
{"id": "C161", "title": "Ordered trees can be kept as one bit vector under rank and select", "statement": "A program that writes the number of children of every node, level by level, with the Unary code into a BitBuffer makes 2n-1 bits of a tree of n nodes. Over these bits, Rank9 and BinSearchSelect give for the node of any number: how many children it has, the number of each of them, and whose child it is and which; child and parent are inverse. A path of child numbers followed from the root ends at the subtree of that path, or reports that there is none. No step panics or wraps.", "quantifier": "all ordered trees whose bits fit in memory, all node and child numbers, all paths; all builds and targets", "why_tests_cant": "The claim is about all trees: an error of select or rank at one block boundary shows only in trees with a node boundary there, and sends a path to another subtree without any panic.", "anchors": ["src/coding/unary.rs:Unary::encode", "src/stream/bit_buffer.rs:BitBuffer::write_bit", "src/rank/rank9.rs:Rank9::new", "src/rank/rank9.rs:Rank9::rank1", "src/select/bin_search.rs:BinSearchSelect::select1", "src/select/bin_search.rs:BinSearchSelect::select0"]}
{"id": "C162", "title": "Sets kept as coded gaps are read back, searched and intersected, in nearly the least possible space", "statement": "A strictly increasing list of integers below 2^64 - 1, written with any of the crate's codes as the distances between its members, is read back by adding up. Looking for an integer gives whether it is a member, and reads only the codes up to the first member that is not smaller. Reading two such sets side by side, even in different codes, gives exactly their common members. With Lift0<Gamma>, n members below U take at most n(2 log2(U/n) + 1) bits; with Lift0<Delta> at most n(log2(U/n) + 2 log2(1 + log2(U/n)) + 1); and no representation of all such sets uses n log2(U/n) - 1 bits or fewer for each of them. No step panics or wraps.", "quantifier": "all strictly increasing lists whose gaps are in the code's domain, all integers looked for, all pairs of sets and of codes, every lawful sink and source; all builds and targets", "why_tests_cant": "The sums run over all members read before, so a code that decodes one value wrongly, or reads one bit too many, shows only in sets with that gap; the bound is an inequality between real logarithms over all sets.", "anchors": ["src/coding/traits.rs:UniversalCode::encode", "src/coding/traits.rs:UniversalCode::decode", "src/coding/trans.rs:Lift0", "src/coding/elias.rs:Elias::encode", "src/coding/elias.rs:Elias::decode", "src/coding/elias.rs:DELTA", "src/stream/traits.rs:BitRead", "src/stream/traits.rs:BitWrite"]}
{"id": "C163", "title": "Records made of codes, integers, choices and counted lists are read back as written", "statement": "For every format built from single bits, integers in any usable code, integers of up to 64 bits in little- or big-endian order, one part after another, a choice of two parts after a bit, and lists after their length in any usable code: a program that writes a record with the stream and coding functions, and one that reads it, are inverse on every lawful sink and source, and reading leaves exactly what follows the record. No record is the beginning of another. If the source ends within a record, reading reports UnexpectedEof (also where Fibonacci alone reports Ok(None)), and any other error of the source is passed on. If the codes accept only codewords (all but Omega, Comma, and Lift0 around a code of 0), whatever is read from any source is a record, and the bits read are the bits that writing it gives. No step panics or wraps.", "quantifier": "all formats (nested to any depth), all records whose numbers and lengths are in the domains, all sinks and sources, all places where the source ends; all builds and targets", "why_tests_cant": "The formats are nested without bound, and a decoder that reads one bit too many or too few, for one value, only shows in what follows it.", "anchors": ["src/coding/traits.rs:UniversalCode::encode", "src/coding/traits.rs:UniversalCode::decode", "src/stream/traits.rs:BitRead::read_int", "src/stream/traits.rs:BitRead::read_int_be", "src/stream/traits.rs:BitWrite::write_int", "src/stream/traits.rs:BitWrite::write_int_be", "src/stream/traits.rs:BitRead::read_bit", "src/coding/fib.rs:Fibonacci::decode", "src/coding/elias.rs:Elias::decode"]}
{"id": "C164", "title": "Texts can be searched in and read back through rank over the symbols before their sorted suffixes", "statement": "A program keeps of a text of symbols 1 .. 2^k - 1 the symbols before its suffixes in the order of dictionaries, as k Rank9 structures over bit vectors, and two integer vectors: how many symbols of the text are smaller than each symbol, and where the suffixes begin. For every pattern of such symbols, the program that narrows a range by two ranks for each symbol of the pattern, from its end, and reads the places in the range, gives exactly the places where the pattern occurs, each once, and the width of the range is their number. The program that starts at the first suffix and goes back by rank until it meets the zero put at the end gives the text. No step panics or wraps.", "quantifier": "all texts and patterns of symbols 1 .. 2^k - 1, all k up to 64, of sizes that are addressable; all builds and targets", "why_tests_cant": "Each step of the search takes its input from the one before; a rank that is off by one for one place gives wrong ranges for some texts and patterns only, and nothing in the result shows it.", "anchors": ["src/rank/rank9.rs:Rank9::rank", "src/rank/rank9.rs:Rank9::new", "src/int_vec/int_vector.rs:IntVector::get", "src/int_vec/int_vector.rs:IntVector::push", "src/bit_vec/bit_vector.rs:BitVector::push_bit"]}
{"id": "C165", "title": "Codes with given codeword lengths are made whenever there are any, and are read back as written", "statement": "A program makes a canonical Huffman code (as in RFC 1951) from codeword lengths 1 .. longest, longest at most 62, held in an IntVector of any element width: three more integer vectors hold the codewords, the number of symbols of each length, and the symbols in the order of their codewords. It returns None exactly if there are no words of these lengths of which none begins another. Otherwise the codewords have these lengths; encoding with write_int_be writes the codeword of the symbol to any sink; decoding from any source, one bit at a time, gives back the symbol and reads no bit after its codeword; at the end of input it gives None, within a codeword an error, and for bits that begin no codeword an error; decoding always returns; shorter codewords come before longer ones in the order of dictionaries, and those of equal length are in the order of their symbols. No step panics or wraps.", "quantifier": "all lists of lengths 1 .. longest of which 64 bits each are addressable, all longest from 1 to 62, all element widths of the vector of lengths, all histories of it, all sinks and sources that keep the contract of BitWrite and BitRead, all builds and targets", "why_tests_cant": "Whether a list of lengths allows a code is a statement about all lists of words; and a code that is wrong for one symbol of some list of lengths only is not found by any fixed set of lists.", "anchors": ["src/int_vec/int_vector.rs:IntVector::get", "src/int_vec/int_vector.rs:IntVector::set", "src/int_vec/int_vector.rs:IntVector::push", "src/int_vec/int_vector.rs:IntVector::with_fill", "src/stream/traits.rs:BitWrite::write_int_be", "src/stream/traits.rs:BitRead::read_bit", "src/coding/traits.rs:UniversalCode"]}
{"id": "C166", "title": "Generic code over the traits for integer vectors works at every type", "statement": "IntVector keeps the contract of IntVec and IntVecMut (len, element_bits, get, set), and so do three wrappers a user might write: elements of k bits inside any lawful bit vector through get_bits and set_bits, where bits after the last element stay as they are; part of any lawful integer vector, where the elements around it stay; and any lawful integer vector read from its end. Over every implementation of the contract, programs that call the methods of the traits only do what they should: reversing in place; sorting in place, by which an IntVector becomes exactly the vector of the sorted elements; binary search in a sorted vector, which gives the number of smaller elements; and inverting a permutation into a second vector of any type. No step panics or wraps.", "quantifier": "all implementations of the traits that keep the contract, all nestings of the wrappers, all contents, all element widths, all block types for IntVector; all builds and targets", "why_tests_cant": "The traits can be implemented by any user; no test can go through all implementations, nestings and contents.", "anchors": ["src/int_vec/traits.rs:IntVec", "src/int_vec/traits.rs:IntVecMut", "src/int_vec/int_vector.rs:IntVector::get", "src/int_vec/int_vector.rs:IntVector::set", "src/bit_vec/traits.rs:BitVec::get_bits", "src/bit_vec/traits.rs:BitVecMut::set_bits"]}
{"id": "C167", "title": "Bits can be copied, moved, inserted and removed a block at a time", "statement": "The program that takes up to one block of bits at a time with get_bits and puts it elsewhere with set_bits copies any span of one vector over any span of the same length of another, of any two types, and changes nothing else. Within one vector it moves any span to any other place, also if the two overlap: from its start if the new place is not after the old one, else from its end. With push_bit before and set_bit after, it inserts a bit at any place; with pop_bit after, it removes one and returns it; the bits after that place move by one and all others stay. A BitVector is then exactly the vector with these bits. No step panics or wraps.", "quantifier": "all lawful bit vectors with the same block type (slices too), all contents, all spans inside, overlapping or not, all places; for insertion a vector that can be one bit longer; all block types; all builds and targets", "why_tests_cant": "Each step reads what earlier steps may have overwritten; whether it does depends on the distance, the length and the block width, of which tests can try only few.", "anchors": ["src/bit_vec/traits.rs:BitVec::get_bits", "src/bit_vec/traits.rs:BitVecMut::set_bits", "src/bit_vec/traits.rs:BitVecPush", "src/bit_vec/bit_vector.rs:BitVector::push_bit", "src/bit_vec/bit_vector.rs:BitVector::pop_bit"]}
{"id": "C168", "title": "An integer vector serves as a priority queue", "statement": "A program keeps numbers of k bits in an IntVector as a binary heap: it puts a number in with push and then exchanges it with its parents, and takes the least out with get(0), pop, set(0) and exchanges with the smaller child. For every sequence of puts and takes, each take returns the least of the numbers that have been put and not yet taken, or None if there is none; what is left in the vector at the end is what has not been taken. No step panics or wraps.", "quantifier": "all sequences of puts of numbers below 2^k and takes, from a new vector or any vector that is a heap, all element widths and block types, as long as the vector is addressable and has at most 2^62 elements; all builds and targets", "why_tests_cant": "The vector after some calls depends on all of them; a comparison with the wrong child or an exchange too few shows in the order of later takes only, for some sequences.", "anchors": ["src/int_vec/int_vector.rs:IntVector::push", "src/int_vec/int_vector.rs:IntVector::pop", "src/int_vec/int_vector.rs:IntVector::get", "src/int_vec/int_vector.rs:IntVector::set", "src/int_vec/traits.rs:IntVec::is_empty"]}
{"id": "C169", "title": "Ordered trees are kept as balanced parentheses", "statement": "A program writes an ordered forest of n nodes as 2n bits of a BitVector, a one where a node opens and a zero where it closes, and builds Rank9 over them; no two forests have the same bits. For each node by its number (root first, then its children's trees, then the trees after it), programs that use select1, rank and get_bit find its depth, the number of nodes of its tree, its parent, its first child and its next sibling, and find that there is none exactly where there is none. No step panics or wraps.", "quantifier": "all ordered forests whose bits are addressable; every node; all builds and targets", "why_tests_cant": "The answers depend on nesting of any depth; an off-by-one in a count or a scan shows for particular shapes only, such as a last child or a tree without children.", "anchors": ["src/bit_vec/bit_vector.rs:BitVector::push_bit", "src/bit_vec/bit_vector.rs:BitVector::get_bit", "src/rank/rank9.rs:Rank9::new", "src/rank/rank9.rs:Rank9::rank1", "src/select/bin_search.rs:BinSearchSelect::select1"]}
{"id": "C170", "title": "Numbers of different sizes are kept in pieces and read back at once", "statement": "A program keeps numbers below 2^64 in levels of pieces of b bits: each level is an IntVector of the lowest pieces of what is left of the numbers and a BitVector that says which numbers have more in the next level, where rank finds them. Every number is read back at its place, and past the end the program panics. The numbers of pieces of all levels add up to floor(lg x) / b + 1 for each number x, and every level has one bit for each piece. No step panics or wraps otherwise.", "quantifier": "all lists of 64-bit numbers whose lowest pieces are addressable, all piece sizes b from 1 to 63, all places; all builds and targets", "why_tests_cant": "Which piece belongs to which number depends on all numbers before it at every level; a rank that is off by one shows only after a number with more pieces than its neighbours.", "anchors": ["src/int_vec/int_vector.rs:IntVector::push", "src/int_vec/int_vector.rs:IntVector::get", "src/bit_vec/bit_vector.rs:BitVector::push_bit", "src/bit_vec/bit_vector.rs:BitVector::get_bit", "src/rank/rank9.rs:Rank9::new", "src/rank/rank9.rs:Rank9::rank1", "src/storage.rs:BlockType::low_mask"]}
{"id": "C171", "title": "Bits chosen by hashes serve as an approximate set", "statement": "A program keeps a set of keys as m bits: for each hash of an added key it sets bit (hash mod m), and it reports a key if all bits of its hashes are set. For every hash function and every sequence of added keys, over every store of bits that keeps the laws of BitVecMut, a key is reported exactly if each of its hashes has the remainder mod m of a hash of some added key; so every added key is reported. Combining the blocks of two filters with | gives the filter of both sets of keys. Over a store of no bits, adding and looking up a key with a hash panic.", "quantifier": "all hash functions, all lists of keys, all m > 0 (and m = 0), all stores with the laws, all block types; all builds and targets", "why_tests_cant": "The bits after some additions depend on all of them, and a bit set at a wrong place is mostly hidden by other keys; the laws are needed for every store.", "anchors": ["src/bit_vec/traits.rs:BitVecMut::set_bit", "src/bit_vec/traits.rs:BitVec::get_bit", "src/bit_vec/traits.rs:BitVec::bit_len", "src/bit_vec/traits.rs:BitVec::get_block", "src/bit_vec/traits.rs:BitVecMut::set_block", "src/bit_vec/bit_vector.rs:BitVector::with_fill"]}
{"id": "C172", "title": "Bounds and neighbours in ranges of a sequence kept as bit vectors", "statement": "Over the k bit vectors under rank that hold a sequence of numbers below 2^k (C159), programs find for every range of places and every bound: how many numbers of the range are below the bound, how many lie between two bounds, the least number of the range that is not below the bound and the greatest that is, or None exactly if there is none. No step panics or wraps.", "quantifier": "all sequences of numbers below 2^k with k up to 64 whose bits are addressable, all ranges, all bounds below 2^k; all builds and targets", "why_tests_cant": "The place of a range on each level depends on the whole sequence; a boundary that is off by one shows only where equal high bits meet the end of a range.", "anchors": ["src/rank/rank9.rs:Rank9::rank1", "src/rank/rank9.rs:Rank9::rank0", "src/storage.rs:BlockType::get_bit", "src/bit_vec/bit_vector.rs:BitVector::push_bit"]}
{"id": "C173", "title": "The primes below a bound, counted by rank and listed by select", "statement": "A program that fills a bit vector of n bits with true, clears 0 and 1, and then for each place that is still true clears its multiples leaves exactly the prime places true. Rank9 over the result counts the primes up to every place, and select with k gives the prime that k primes lie below, or None exactly if there are no more than k primes below n.", "quantifier": "all n up to 2^63 whose bits are addressable, all places, all k below 2^64 - 1; all builds and targets", "why_tests_cant": "Tests compare a few small bounds; the claim is about primality for every n, and about the sum that steps to the next multiple never wrapping.", "anchors": ["src/bit_vec/bit_vector.rs:BitVector::with_fill", "src/bit_vec/bit_vector.rs:BitVector::set_bit", "src/bit_vec/bit_vector.rs:BitVector::get_bit", "src/rank/rank9.rs:Rank9::rank1", "src/select/bin_search.rs:BinSearchSelect::select1"]}
{"id": "C174", "title": "Classes of numbers are joined and looked up in an integer vector", "statement": "Programs over any integer vector of n elements keep classes of the numbers below n: at first each number is alone, then pairs are joined in any order. For every sequence of joins and questions, each question about x is answered by the least number that a chain of the pairs joined before leads to from x; questions shorten the paths and change no later answer. The number of elements that lead to themselves is the number of classes. No step panics or wraps, no search fails to end, and over IntVector a question about a number that is not there panics.", "quantifier": "all lawful integer vectors whose elements can hold n - 1, all sequences of joins and questions; all builds and targets", "why_tests_cant": "The paths depend on all joins and questions so far; a wrong shortening shows only for certain shapes, and a cycle shows as a search that never ends.", "anchors": ["src/int_vec/traits.rs:IntVec::get", "src/int_vec/traits.rs:IntVecMut::set", "src/int_vec/int_vector.rs:IntVector::get", "src/int_vec/int_vector.rs:IntVector::set"]}
{"id": "C175", "title": "Integer vectors are sorted in place through a heap", "statement": "A program over any integer vector makes its first elements a heap, one element more at a time, and then moves the least of the heap behind it until nothing is left: the elements are the same as before, in descending order. Run over the vector read from its end it leaves them in ascending order. No step panics or wraps.", "quantifier": "all lawful integer vectors of up to 2^62 elements (IntVector, elements packed in any bit vector, parts and reversals of such); all builds and targets", "why_tests_cant": "The place of an element in the heap depends on all others; a wrong bound of the shrinking heap shows only for certain orders.", "anchors": ["src/int_vec/traits.rs:IntVec::get", "src/int_vec/traits.rs:IntVec::len", "src/int_vec/traits.rs:IntVecMut::set"]}
{"id": "C176", "title": "Directed graphs are kept in a bit vector and an integer vector, and searched", "statement": "A program writes a directed graph as one bit vector, for each node a one and then a zero for each of its edges, under rank and select, and one IntVector of the targets of all edges. Other programs find the number of nodes, the number of edges of every node and each target. A search with a stack from any node marks in a bit vector exactly the nodes that can be reached from it, for every graph, with cycles, loops and repeated edges. No step panics or wraps, and the search ends.", "quantifier": "all graphs whose bits and targets are addressable, all nodes; all builds and targets", "why_tests_cant": "What the stack holds depends on all edges seen so far; that the search ends and misses nothing is a claim about all graphs, and an off-by-one between select and the targets shows only next to nodes without edges.", "anchors": ["src/bit_vec/bit_vector.rs:BitVector::push_bit", "src/bit_vec/bit_vector.rs:BitVector::set_bit", "src/bit_vec/bit_vector.rs:BitVector::get_bit", "src/bit_vec/bit_vector.rs:BitVector::with_fill", "src/select/bin_search.rs:BinSearchSelect::select1", "src/int_vec/int_vector.rs:IntVector::push", "src/int_vec/int_vector.rs:IntVector::pop", "src/int_vec/int_vector.rs:IntVector::get"]}
{"id": "C177", "title": "Sums of the first numbers of a changing sequence in an integer vector", "statement": "A program keeps in element i-1 of an integer vector the sum of the numbers from place i minus the lowest one of i up to place i-1. Adding to one number, the sum of the first i numbers, and the search for the last place up to which the sum is at most x are all as for the sequence itself; every sequence of additions and questions on a new IntVector of zeros gives the sums of the sequence. No step panics or wraps as long as the sum of all numbers fits an element.", "quantifier": "all lawful integer vectors of fewer than 2^63 elements (IntVector, elements packed in any bit vector, parts and reversals of such), all sequences of additions and questions; all builds and targets", "why_tests_cant": "Which elements an addition touches depends on the binary form of the place; a wrong step shows only at certain pairs of places.", "anchors": ["src/int_vec/traits.rs:IntVec::get", "src/int_vec/traits.rs:IntVec::len", "src/int_vec/traits.rs:IntVecMut::set", "src/int_vec/int_vector.rs:IntVector::with_fill"]}
{"id": "C178", "title": "A hash function keeps a set of numbers in a bit vector and an integer vector", "statement": "A program puts each number at the first place, counted from the one its hash names and around the end, whose bit is not set, in an integer vector with a bit vector of used places. Whatever the hash function, it answers every sequence of insertions and questions as the set does: a number is new exactly if it was not put in before, and there is no room exactly when all places are used. No step panics.", "quantifier": "all hash functions, all lawful integer vectors and bit vectors of the same length, at least 1 (IntVector and BitVector of all block types among them), all sequences of calls with numbers that fit an element; all builds and targets", "why_tests_cant": "Errors show only where numbers collide and run around the end; the hash function and the sequence of calls are both unbounded.", "anchors": ["src/int_vec/traits.rs:IntVec::get", "src/int_vec/traits.rs:IntVecMut::set", "src/bit_vec/traits.rs:BitVec::get_bit", "src/bit_vec/traits.rs:BitVecMut::set_bit", "src/bit_vec/bit_vector.rs:BitVector::with_fill", "src/int_vec/int_vector.rs:IntVector::with_fill"]}
{"id": "C179", "title": "The paths of a relation are found in a square of bits", "statement": "A program over a bit vector of n*n bits, bit i*n+j for an edge from i to j, goes through the places k and sets bit i*n+j, in place, wherever the bits from i to k and from k to j are set. In the end bit i*n+j is set exactly if a path of one or more edges leads from i to j. No step panics or wraps.", "quantifier": "all lawful bit vectors of n*n bits for all n (BitVector of all block types, slices, borrowed and boxed ones), all relations; all builds and targets", "why_tests_cant": "The bits read are changed while the program runs; that no path is missed or invented depends on the order of the three loops, for every relation.", "anchors": ["src/bit_vec/traits.rs:BitVec::get_bit", "src/bit_vec/traits.rs:BitVecMut::set_bit", "src/bit_vec/bit_vector.rs:BitVector"]}
{"id": "C180", "title": "Arrays with gaps are kept in a bit vector under rank and select and an integer vector", "statement": "A program writes one bit per place, set where there is a value, into a BitVector under Rank9, and the values alone into an IntVector. Reading any place gives its value or says that there is none; a place outside panics; a value is replaced without changing any other place, and a gap is not filled; value j is given together with its place. Every array is built without panic or wrap as long as it fits the address space.", "quantifier": "all arrays of values and gaps, all element widths from 1 to 64, all sequences of replacements; all builds and targets", "why_tests_cant": "The index of a value is the number of values before it, so that one wrong count by rank at any place gives the value of another place.", "anchors": ["src/rank/rank9.rs:Rank9", "src/select/bin_search.rs:BinSearchSelect", "src/bit_vec/bit_vector.rs:BitVector", "src/int_vec/int_vector.rs:IntVector"]}
{"id": "C181", "title": "Ancestors and lowest common ancestors in trees kept as balanced parentheses", "statement": "Over an ordered forest written as parentheses into a BitVector under Rank9 (C169), a program tells for any two nodes whether the first is the second or an ancestor of it, by number and size of its tree, and another finds their lowest common ancestor by going up from the first: a common ancestor of which every common ancestor is an ancestor, which is unique; or that there is none. No step panics or wraps, and the search ends.", "quantifier": "all ordered forests whose bits are addressable; every two nodes; all builds and targets", "why_tests_cant": "The answers depend on nesting of any depth and on pairs of nodes; an off-by-one shows only at the last node of some tree.", "anchors": ["src/bit_vec/bit_vector.rs:BitVector::get_bit", "src/rank/rank9.rs:Rank9::rank1", "src/select/bin_search.rs:BinSearchSelect::select1"]}
{"id": "C182", "title": "The sums of the parts of a list of numbers, in a bit vector", "statement": "A program that sets bit 0 of a new BitVector of n bits and then, for each number x in turn, goes down from the last place and sets bit j where bit j - x is set, ends with bit j set exactly if some of the numbers, each taken at most once, have the sum j; numbers beyond the vector are passed over. No step panics or wraps. The same holds over every implementation that keeps the laws of BitVec and BitVecMut, going on from the sums of any earlier numbers.", "quantifier": "all lists of numbers; every addressable length above 0; every block type; all builds and targets", "why_tests_cant": "Reading bits of the vector while setting others is right only in one order; whether a bit should be set depends on all the parts of the list, of which there are exponentially many.", "anchors": ["src/bit_vec/bit_vector.rs:BitVector::with_fill", "src/bit_vec/traits.rs:BitVec::get_bit", "src/bit_vec/traits.rs:BitVecMut::set_bit"]}
{"id": "C183", "title": "The length of a longest common subsequence, by one row in an integer vector", "statement": "Over two integer vectors and a row of zeros in a third, one longer than the second vector, a program that goes through the first vector and writes each row of the table of lengths over the one before gives the length of the longest common subsequences: some list that comes out of both by leaving elements out has that length, and none is longer. No step panics or wraps, and no number outgrows its element if the length of the second vector fits in one. The same holds with a new IntVector for the row and over every implementation that keeps the laws of IntVec and IntVecMut.", "quantifier": "all pairs of integer vectors over any implementations; every element width that holds the length of the second; all builds and targets", "why_tests_cant": "Each number is overwritten while its old value is still needed for the next; what the last one means depends on all subsequences of both vectors, of which there are exponentially many.", "anchors": ["src/int_vec/int_vector.rs:IntVector::with_fill", "src/int_vec/traits.rs:IntVec::get", "src/int_vec/traits.rs:IntVecMut::set"]}
{"id": "C184", "title": "The least element of any range of an integer vector by two lookups", "statement": "Behind the elements of an IntVector a program pushes, for each power of two up to its length, the least elements of the ranges of that length from each place on. With these rows another program gives the least element of any range that is not empty from two numbers of one row, whose ranges overlap: it is at some place in the range, and no element of the range is less. No step panics or wraps, and both end.", "quantifier": "every IntVector that is not empty and has room for the rows; every range that is not empty; every element width and block type; all builds and targets", "why_tests_cant": "The number of ranges grows with the square of the length, and each answer depends on rows made from rows; ranges at the end are cut off.", "anchors": ["src/int_vec/int_vector.rs:IntVector::push", "src/int_vec/int_vector.rs:IntVector::get"]}
{"id": "C185", "title": "Numbers of any length in bit vectors are added a block at a time", "statement": "A program that goes through two bit vectors of the same length, adds their blocks with the carry of the blocks before, and sets the blocks of the first, leaves there the sum of the two numbers they held, least significant bit first, modulo two to the length, also if the last block is used in part and whatever its unused bits are when read. If the length is a multiple of the width of a block, the last carry tells exactly whether the sum was too large. For BitVector the result is the very vector with the bits of the sum. No step panics.", "quantifier": "all pairs of bit vectors of the same length over any implementations that keep the laws; every block type; all builds and targets", "why_tests_cant": "A carry can run through any number of blocks; a wrong carry shows only when a block and a carry together overflow.", "anchors": ["src/bit_vec/traits.rs:BitVec::get_block", "src/bit_vec/traits.rs:BitVecMut::set_block", "src/bit_vec/traits.rs:BitVec::block_len"]}
{"id": "C186", "title": "An integer vector used in a circle serves as a queue", "statement": "With the place of the first number and the count kept beside it, an integer vector of n elements serves as a queue: a number is put at the end exactly if fewer than n are there, and else the caller is told that there is no room and nothing changes; the first number is taken, or none if there is none. Every sequence of such calls gets the answers of a queue with room for n numbers, from any state that holds some numbers around the circle and from a new IntVector. No step panics or wraps, for n of 0 and for n near the greatest possible too.", "quantifier": "all sequences of calls with numbers that fit; every length, element width and block type; every implementation that keeps the laws of IntVec and IntVecMut; all builds and targets", "why_tests_cant": "The places in use move around the circle with no bound on the number of calls; a wrong place shows only for some counts and first places together.", "anchors": ["src/int_vec/int_vector.rs:IntVector::with_fill", "src/int_vec/traits.rs:IntVec::get", "src/int_vec/traits.rs:IntVec::len", "src/int_vec/traits.rs:IntVecMut::set"]}
{"id": "C187", "title": "Numbers of any length in bit vectors are compared a block at a time", "statement": "A program that goes through the blocks of two bit vectors of the same length from the last to the first, and answers by the first two that differ, gives the order of the numbers that the vectors hold, least significant bit first; for two BitVectors it answers Equal exactly if all bits are the same. The bits beyond the end must read as zero, which they do in BitVector; a vector of blocks for which they do not gives a wrong answer. No step panics.", "quantifier": "all pairs of bit vectors of the same length over any implementations that keep the laws for blocks; every block type; all builds and targets", "why_tests_cant": "The answer depends on unused bits of the last block, which no method shows but get_block, and on blocks of every number and value.", "anchors": ["src/bit_vec/traits.rs:BitVec::get_block", "src/bit_vec/traits.rs:BitVec::block_len", "src/bit_vec/bit_vector.rs:BitVector::get_block"]}
{"id": "C188", "title": "Numbers of any length in bit vectors are subtracted a block at a time", "statement": "A program that complements every block of a bit vector, adds to it a second one of the same length a block at a time with carry, and complements every block again, leaves in the first vector the difference of the two numbers that the vectors held, modulo two to the length. If the length is a multiple of the width of a block, the last carry tells whether the second number was the greater. For two BitVectors the result is a vector that the methods of the crate can build. No step panics.", "quantifier": "all pairs of bit vectors of the same length over any implementations that keep the laws for blocks; every block type; all builds and targets", "why_tests_cant": "Complements set the unused bits of the last block, which must not reach the sum; the result depends on blocks of every number and value.", "anchors": ["src/bit_vec/traits.rs:BitVec::get_block", "src/bit_vec/traits.rs:BitVecMut::set_block", "src/bit_vec/bit_vector.rs:BitVector::set_block"]}
{"id": "C189", "title": "A counter in a bit vector counts, with two writes of a bit at most per step on average", "statement": "A program that clears the bits from the first on while they are set, and sets the next, leaves in a bit vector of n bits the number one greater than before modulo 2^n; the calls of set_bit it makes are two, more those by which the set bits have become fewer, or n after the greatest number. From a new BitVector of zeros, k steps with k < 2^n leave the bits of k, and make exactly 2k calls of set_bit less one for each set bit of k. No step panics.", "quantifier": "all bit vectors over any implementation that keeps the laws for reading bits and writing bits; all lengths that fit; all numbers of steps; every block type; all builds and targets", "why_tests_cant": "A step may go through the whole vector; that the writes of k steps come to 2k less the set bits is a statement on all k and all lengths.", "anchors": ["src/bit_vec/traits.rs:BitVec::get_bit", "src/bit_vec/traits.rs:BitVecMut::set_bit", "src/bit_vec/bit_vector.rs:BitVector::with_fill"]}
