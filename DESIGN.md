# Formal model of tov/succinct-rs in Lean 4 — design

Source: `/repo` (pinned, read as text, never built here). Lean project: `/verif/lean`.
Properties: `/verif/properties.jsonl` (C01…). Status per property: `/verif/MANIFEST.json`.

## 1. Shape of the model

The code is modelled function by function, with Rust's observable failure modes explicit.

* `Res α` = `ok a | panic | diverge`. A Rust panic is a value; a loop that never ends is `diverge`
  (loops whose termination is not obvious are Lean `partial_fixpoint`s, so non-termination can be *proved*).
* `Cfg` = build configuration: `debug : Bool` (overflow checks), `ptr : Ptr` (`p32` or `p64`, the pointer width;
  `c.usz` is the number of bits of `usize`) and `asserts : Bool` (`debug_assert!`). Theorems quantify over `Cfg`, so
  they also cover profiles that turn on only one of the two kinds of check. Where comments and property texts say
  "debug build" or "mode" without more, overflow checks are meant and debug assertions may be on or off.
* `u64`/`usize` counters are `Nat`s together with checked operations (`addN`, `subN`, `mulN`) that panic with
  overflow checks and wrap without, exactly where the source uses `+ - *`; `checked_add` etc. are modelled separately;
  `as usize` truncates to `usz` bits.
* A storage block (`u8 … u64`, `usize`, or a user's own `BlockType`) is `BitVec w` where `w` is any power of two from 8 to 65536 (`IsBlk w`). A user's own type is assumed to have `PrimInt` operations that behave like those of a built-in unsigned integer, the default (or the macro's) `low_mask`, and, where a theorem is about the primitive `BitVec`/rank implementations, the same code as the built-in types.
  Shifts panic (overflow checks) or mask the shift amount (none) when it is `≥ w`.
* `Vec<Block>` is a `List (BitVec w)`; capacity is modelled separately (module `Capacity`) against a
  parameterised allocator obeying `Vec`'s documented contract.
* Traits (`BitVec`, `BitVecMut`, `BitVecPush`, `RankSupport`, `BitRead`, `BitWrite`, `UniversalCode`) are
  dictionaries (structures of functions); default methods are functions over the dictionary's other members.
* `&mut self` methods return the new value. I/O methods have type
  `σ → Res (Except IoErr α × σ)` so that the state after an `Err` is visible.

* The main model forgets `self` when a method panics. `Model/Unwind.lean` re-models the mutating methods
  statement by statement so that the value left behind by a panic is visible; every function in it is proved to agree
  with the main model (`…_res`). `Model/UnwindMore.lean` does the same for `BitBuffer` and `BitSliceMut`, and counts the bits
  a panicking decoder has taken by running it over a source that hangs after a given number of calls.
* In the main model `&self` methods leave `self` as it is. `Model/Hidden.lean` re-models the generic code (trait defaults,
  slices, rank and select structures, buffers) over vectors whose `&self` methods may change hidden state; over vectors
  without it the two models are proved equal (`C137_still`).

## 2. Modules

| module | content |
|---|---|
| `Verif/Rust.lean` | `Res`, `Cfg`, arithmetic, loops, stream monad |
| `Verif/Spec.lean`, `Verif/Spec/*.lean` | specification vocabulary, independent of the model: lists of bits, rank/select on lists, vectors as lists with operations, deques, bit files, codewords, call sequences with caught panics |
| `Verif/Law.lean`, `RankLaw.lean`, `StreamLaw.lean`, `CodeLaw.lean` | what it means for a trait dictionary to implement lists of bits, rank, bit sinks/sources, a code |
| `Verif/Model/*.lean` | the code: `Storage` (storage.rs), `BitVecTrait` (bit_vec/traits.rs, prim.rs), `VectorBase` (internal/vector_base.rs, BitVector, IntVector), `Iter` (iterators, formatting), `Slice` (bit_slice.rs), `Rank` (rank/), `Select` (select/, internal/search.rs), `Broadword`, `Stream` (stream/), `BlockIO` (block reading and writing), `Coding` (coding/), `Capacity`, `SpaceUsage`, `RankCapacity` (the constructors of the rank structures with capacities), `Memory` (allocations that may be refused), `Unwind`, `Derived` (derived `Hash` and `Ord`), `Format` (formatting to a formatter that may fail, derived `Debug`), `Adaptors` (std iterator adaptors over the crate's iterators), `Hidden` (generic code over vectors with hidden state) |
| `Verif/Lemmas/*.lean` | helper lemmas |
| `Verif/Props/*.lean` | property theorems, each next to a concrete case |
| `Verif/Instances/*.lean` | for each property module, every theorem that has hypotheses applied to concrete data (`Data.lean`) with all hypotheses proved, so that none is vacuous |
| `Verif/Tests/*.lean` | the crate's own unit tests run on the model in all four configurations (`#guard`, `decide`): checks of the transcription, not proofs |
| `Verif/Axioms.lean` | fails to build if any declaration depends on an axiom other than the three standard ones |
| `Verif/Claims.lean` | fails to build if a name in `MANIFEST.json` is not a theorem, or a theorem numbered after a property is missing from it |

## 3. Per property plan

| id | modelled as | proof |
|---|---|---|
| C01–C03 | `BlockType` methods on `BitVec w` | bit extensionality (`getLsbD`), case split on full width |
| C04 | `floor_lg`/`ceil_lg` via leading zeros | `Nat.log2` bounds |
| C05 | `ceil_div` with overflow | exact under no-overflow; overflow behaviour proved separately (counterexample expected → partial) |
| C06, C07 | address arithmetic by shifts/masks | `Nat.shiftRight_eq_div_pow`, masks as mod; release wrap of `checked_ceil_div_nbits` is a counterexample → partial |
| C08 | byte-level block I/O (byteorder crate by contract) | induction on bytes |
| C09–C12, C74 | default methods of `BitVec`/`BitVecMut` over dictionaries | bit extensionality, refinement to `List Bool`; C11, C74 expected false at corners → partial + counterexample |
| C13 | prims dictionary | from C02/C03 |
| C14–C21 | `VectorBase` (element_bits=1) and `BitVector` | invariant + refinement to `List Bool`, lifted over op lists |
| C22–C28 | `VectorBase`/`IntVector` | invariant + refinement to `List Nat` |
| C29–C31 | iterators as index pairs | refinement to list deque; C30 false after `nth` overshoot → partial + counterexample |
| C32–C35 | slices as (start,len) windows over any lawful dictionary | window arithmetic; C35 false → partial + counterexamples |
| C36–C42 | rank structures over any lawful store dictionary | loop invariants; C38, C40 false → partial + counterexamples |
| C43–C45 | binary search as a loop with measure | invariant; C44 false at `u64::MAX` → partial |
| C46–C50 | broadword on `BitVec 64` | byte-lane decomposition (`ofBytes`), per-byte facts; C47, C49 false → partial + counterexamples |
| C51–C54 | stream traits over any sink/source; `VecDeque`, `BitBuffer` | induction on bits; refinement |
| C55–C69 | codes over any sink/source | `encode = write the specified codeword`; `decode` inverts it on any source that yields it |
| C70 | capacity model | counterexample for `reserve` on spare capacity → partial |
| C71, C72 | space accounting functions | computation/induction |
| C73 | derived `Ord` as lexicographic compare | order lemmas |
| C75, C76 | default `set_block` and `IntVector::get/set` with machine indices | exact in range; wrapped indices are counterexamples → partial |
| C77 | decoders on arbitrary bit streams | inversion of each decoder run; Omega and Comma false at corners → partial + counterexamples |
| C78–C81 | mutating methods with the state left behind by a panic | agreement with the main model, then: everything that can panic comes before the first write; C81 false for wrapped positions → partial + counterexample |
| C82 | capacity with an arbitrary lawful allocator, over operation lists | invariant |
| C83, C84 | rank structures and buffers over slices | whole-block slices are lawful stores; constructors read every block, so partial blocks panic → partial + counterexamples |
| C85 | derived `Hash` as the list of hasher calls | injectivity of fixed-width fields |
| C86–C88 | derived `Ord` | highest differing bit decides; C87, C88 false → exact order + counterexamples |
| C89–C91 | binary search over arbitrary functions; number of rank queries; what a query reads | `C90` over a counting copy of the search (`Model/Probes.lean`) proved equal to it |
| C92–C93 | codeword lengths: monotone, bounded, Kraft's inequality | all codes |
| C94 | all nestings of the bit-vector types | inductive predicate `Store` |
| C95–C96 | every call ends; exactly when encoding and decoding hang | `C95` over arbitrary, also inconsistent, states |
| C97–C99 | exact results outside the contract: words, spans of any width, wrapped indices and lengths | closed formulas for every argument and build |
| C100 | capacity under arbitrary call sequences | all `BvOp`/`IvOp` sequences mixed with capacity calls |
| C101 | how elements lie in blocks | `is_aligned`, `push_block`, `pop_block`, `block_truncate` |
| C102 | the crate's quickcheck properties for all arguments | `broadword::test`, `storage::test`, `coding::properties` |
| C103 | types built with the adapter macros | `macros.rs` |
| C104 | rank directories are allocated once (partial) | `Rank9::new`, `JacobsonRank::new` |
| C105 | the `space` tests for all sizes | `rank9::test::space`, `jacobson::test::space` |
| C106 | the outcome of decoding any finite stream | `src/coding/*.rs`, all `decode`s |
| C107 | builds with more and with fewer checks agree up to added panics | every checked operation |
| C108 | 32-bit and 64-bit targets agree | every use of `usize` |
| C109 | Vectors when memory runs out | `Vec` allocations in `vector_base.rs` |
| C110 | Formatting with a failing formatter | `fmt::Binary`, `fmt::Debug` |
| C111 | Formatted text determines the value | `fmt::Binary`, `fmt::Debug`, derived `Debug` |
| C112 | Growth copies a linear number of blocks | `VectorBase` over `Vec` growth |
| C113 | Block-by-block serialisation does not depend on the block type | `read_block`, `write_block`, client programs |
| C114 | Encoded values can be looked up and replaced by position | `BitBuffer::seek`, the codes, client programs |
| C115 | Streams and vectors agree on bit fields | `read_int`, `write_int`, `get_bits`, `set_bits`, `IntVector` |
| C116 | Damaged streams of Fibonacci codewords get back in step | `Fibonacci` |
| C117 | Programs using many objects behave as with lists | all structures and codes together |
| C118 | Iterators compare and hash by their positions and the vector | derived `Eq`, `Ord`, `Hash` of `Iter` |
| C119 | The outcome of encoding any value with any code | all codes, `encode` |
| C120 | Exactly which states vectors and buffers can be in | reachability, all calls |
| C121 | Decoding from any source is decided by the bits it delivered | simulation between an arbitrary source and a queue, then C106 |
| C122 | Programs that catch panics know what is left | C117 with panics carrying the state; every setter changes nothing before its last panic; decoders metered |
| C123 | A compressed sequence answers queries by number and by bit | client program: C114 positions, marks in a BitVector, rank and select of the marks |
| C124 | Changing codes loses nothing | client program over C106 and C119 outcomes; C77 for copies |
| C125 | Decoding a stream in pieces is decoding it at once | client program over C106 outcomes; finality of outcomes (C121); buffer as file (C54) |
| C126 | Building rank directories when memory runs out | constructors with allocations (`Model/MemoryMore.lean`) against C104 and C37/C39 |
| C127 | Encoding when memory runs out | encoders with allocations (`Model/MemoryMore.lean`); outcome function of `Spec/EncodeMemory.lean` |
| C128 | A bit buffer when memory runs out | `heapBitVec` (`Model/MemoryMore.lean`) under `BitBuf`; file with capacity of `Spec/BufferMemory.lean` |
| C129 | Elias and Lift0 work over any code | `elias`, `lift0` over an arbitrary `Code` |
| C130 | Whether more bits can complete a stream | `CodeName.decOut` (proved to be what the decoders do, C106) and the decoders |
| C131 | Unary and Comma find their place again after damage | the decoders `unary` and `comma`, the encoders for what was written |
| C132 | The universal codes are universal | the encoders, through their codewords (C55-C62); entropy is stated with real logarithms, independently of the codes |
| C133 | A minimal implementation of the bit-vector traits is a complete one | the default methods of BitVec, BitVecMut and BitVecPush as functions of whatever methods an implementor gives; Model/MinimalImpl.lean |
| C134 | Search and select work at every type | average, binary_search_function at all types, RankSupport and SelectSupport over any alphabet; Model/SearchGeneric.lean |
| C135 | Which code is shortest for which values | lengths of what encode writes; Props/WhichCode.lean |
| C136 | Standard iterator adaptors work on the iterators of the crate | next, nth, next_back, nth_back (default), len under the std adaptors Rev, Skip, Take, StepBy; Model/Adaptors.lean |
| C137 | Generic code works over vectors whose reading methods change hidden state | the generic code over vectors with hidden state: trait defaults, slices, rank, select, buffers; Model/Hidden.lean |
| C138 | Exactly which calls generic code makes on its vector | calls made by new and rank1 of Rank9 and JacobsonRank, default get_bit, get_bits, get_block, set_bit and set_bits, slices, select by binary search over Rank9, BitBuffer::read_bit; Model/Hidden.lean |
| C139 | A block type must have a power of two of bits | widths of block types: lg_nbits, Address::new, with_fill, set_bit, get_bit, get_bits at widths that are no power of two; Model/Storage.lean, Model/VectorBase.lean |
| C140 | After one wrong bit, Gamma, Delta and Omega may never find their place again | streams of equal codewords with the first bit removed or changed; Model/Coding.lean |
| C141 | The block type is only a choice of representation | pairs of programs of C117 in lock step; Spec/Alike.lean, Spec/Program.lean |
| C142 | Which share of all bit streams each code can decode | sums of powers of 1/2 over codewords (rational numbers), numbers of bit lists; Spec/Codes.lean |
| C143 | The order of writes matters only where they overlap | a write as a position and bits, the last write at a position; Spec.lean, Law.lean |
| C144 | Rank9 and JacobsonRank are interchangeable | pairs of programs of C117 in lock step; Spec/Index.lean, Spec/Program.lean |
| C145 | The documented departures from the paper were needed | printed algorithms modelled in Props/Paper.lean; byte-vector lemmas |
| C146 | Where the documentation comments disagree with the code | C27, C24, C97, C70 |
| C147 | Text formatted with options still determines the value, unless padding runs into the digits | C111 |
| C148 | The number of rank queries of select depends on the length and the answer only; its average is 3/2 lg n | C90 |
| C149 | What the rank directories contain | C37–C39, C72 |
| C150 | JacobsonRank over vectors with extra bits in the last block | C37, C39, C133 |
| C151 | Coders over streams with integer methods of their own | C51–C60, C62, C63 |
| C152 | Vectors, rank and select over block types with methods of their own | C14, C22, C37, C44 |
| C153 | Rank and select over a vector that has changed behind the structure | C37, C39, C44 |
| C154 | Integers may be transferred in pieces | C51, C52, C115 |
| C155 | Neighbours, counts and lists of positions from rank and select | C41, C44, C45 |
| C156 | Bitwise operations and counts may be done block by block | C12, C21 |
| C157 | Sorted sequences can be kept in an IntVector and a BitVector under rank and select | C22, C14, C39, C44 |
| C158 | The blocks of one vector can be written to a file and read into another | C08, C28, C12 |
| C159 | Sequences of numbers can be kept as bit vectors under rank and searched by place, number and order | C14, C39, C42, C155 |
| C160 | The order of codewords is the order of the values | C62, C68, C73, C87, C92 |
| C161 | Ordered trees can be kept as one bit vector under rank and select | C39, C44, C55, C155 |
| C162 | Sets kept as coded gaps are read back, searched and intersected, in nearly the least possible space | C62, C132 |
| C163 | Records made of codes, integers, choices and counted lists are read back as written | C52, C62, C64, C77 |
| C164 | Texts can be searched in and read back through rank over the symbols before their sorted suffixes | C22, C39, C159 |
| C165 | Codes with given codeword lengths are made whenever there are any, and are read back as written | C22, C129 |
| C166 | Generic code over the traits for integer vectors works at every type | C22, C28, C76; the traits `IntVec` and `IntVecMut` as dictionaries: `Props/IntVecTrait.lean` |
| C167 | Bits can be copied, moved, inserted and removed a block at a time | C14, C33, C154 |
| C168 | An integer vector serves as a priority queue | C22, C166 |
| C169 | Ordered trees are kept as balanced parentheses | C39, C44, C161 |
| C170 | Numbers of different sizes are kept in pieces and read back at once | C22, C39, C155 |
| C171 | Bits chosen by hashes serve as an approximate set | C14, C17, C156 |
| C172 | Bounds and neighbours in ranges of a sequence kept as bit vectors | C39, C155, C159 |
| C173 | The primes below a bound, counted by rank and listed by select | C17, C39, C44 |
| C174 | Classes of numbers are joined and looked up in an integer vector | C76, C166 |
| C175 | Integer vectors are sorted in place through a heap | C166, C168 |
| C176 | Directed graphs are kept in a bit vector and an integer vector, and searched | C17, C22, C39, C44 |
| C177 | Sums of the first numbers of a changing sequence in an integer vector | C166 |
| C178 | A hash function keeps a set of numbers in a bit vector and an integer vector | C166, C171 |
| C179 | The paths of a relation are found in a square of bits | C156, C176 |
| C180 | Arrays with gaps are kept in a bit vector under rank and select and an integer vector | C39, C44, C176 |
| C181 | Ancestors and lowest common ancestors in trees kept as balanced parentheses | C169 |
| C182 | The sums of the parts of a list of numbers, in a bit vector | C179 |
| C183 | The length of a longest common subsequence, by one row in an integer vector | C182 |
| C184 | The least element of any range of an integer vector by two lookups | C183 |
| C185 | Numbers of any length in bit vectors are added a block at a time | C184 |
| C186 | An integer vector used in a circle serves as a queue | C185 |
| C187 | Numbers of any length in bit vectors are compared a block at a time | C186 |
| C188 | Numbers of any length in bit vectors are subtracted a block at a time | C187 |
| C189 | A counter in a bit vector counts, with two writes of a bit at most per step on average | C188 |

Nothing is planned as "not applicable".

## 4. Findings

Properties that hold only in part have a theorem named `…_partial` (with the restriction in its hypotheses) and a
theorem proving that the full statement is false (or an exact description of what happens instead). The note of the
property in `MANIFEST.json` says the same:

<!-- findings -->
* C03: Functional part and debug-mode panics proved in full. The panic clause fails in release builds when start+len wraps: proved counterexample; the partial theorem gives the exact range where it holds. Exact behaviour for all arguments: C97_word_fields.
* C05: The code computes (x+d-1)/d, which overflows near the maximum; proved exact without overflow, and the overflow behaviour is proved. Exact behaviour for all arguments: C97_ceil_div.
* C07: checked_ceil_div_nbits overflows near u64::MAX and mul_nbits drops high bits: counterexamples proved; all other cases proved. Exact behaviour for all arguments: C97_ceil_div_nbits, C97_mul_div_nbits.
* C104: Full for Rank9. JacobsonRank counts its entries one short unless the vector is a whole number of (large) blocks long; C104_jacobson_partial says exactly when a directory is reallocated, C104_counterexample gives 73 and 521 bits in 8-bit blocks.
* C11: Holds for start < bit_len; at start = bit_len of a block-aligned array the code indexes one past the end and panics (proved). Exact behaviour: C98_get_bits.
* C13: All reads/writes and panics proved except spans whose end wraps past u64::MAX in builds without overflow checks, where get_bits returns a value instead of panicking (proved counterexample). Exact behaviour: C97_word_spans.
* C150: False for some: seven ones in the byte 0xFF make JacobsonRank::new panic. Exact: with T the ones before the last block plus those in it, extra ones included, all is right if T < 2^⌈lg(n+1)⌉ and construction panics otherwise. Rank9 is right with any extra bits (C39).
* C17: Contents proved for every addressable size. Too-large lengths are rejected except, in builds without overflow checks, lengths within nbits-1 of u64::MAX, which silently give an empty vector (proved counterexample). Exact behaviour there: C99_fill_wraps.
* C18: Contents proved for every addressable size; the panic clause has the same exception as C17 (proved counterexample: resize(u64::MAX) empties the vector in release builds). Exact behaviour there: C99_fill_wraps.
* C30: C30_exact gives the exact result after any calls; it is the documented one for lengths below 2^usize and while no nth call overshoots. After nth past the end the crate's len underflows (proved counterexample), and on 32-bit targets count() truncates for long vectors (proved counterexample).
* C35: Proved for full blocks and for indices whose bit position is below 2^64. The full claim is false: reading a partial last block panics, and block index 2^58 of a u64 slice aliases block 0 (both proved). Exact behaviour at every index: C99_slice_get_block, C99_slice_set_block.
* C38: Construction succeeds exactly for at least two bits. The full claim is false: on empty and one-bit vectors JacobsonRank::new divides by zero (proved).
* C40: Proved for Jacobson in all builds, words and Broadword in builds with debug assertions, Rank9 past the last block. False otherwise: words and Broadword without debug assertions (overflow checks or not) and Rank9 inside the last block return numbers (proved). Exact behaviour of words: C97_word_rank, C40_words_rank0_release; of Broadword in release builds: C40_broadword_release, C40_broadword_rank0_release; of Rank9 inside the last block: C40_rank9_silent_all; rank0 of every structure from its rank1: C40_rank0.
* C44: Proved for every k below u64::MAX. At k = u64::MAX the claim is false: release builds return Some(0) on any non-empty vector and None on the empty one, debug builds panic (C44_max, for select1, select0 and select).
* C47: Proved for r < 128, which covers every r that can have an answer. False for larger r: for 192 <= r < 256 the result is Some(0) on every word (proved). Never panics for any r. C47_exact gives the returned value for every r >= 64, C47_zero on the zero word, C47_middle(_low) for 128 <= r < 192, where answers past the end of the word occur (select1(130, 7) = Some(70)).
* C49: Proved for bytes of equal sign. False for bytes of different sign, where the exact (wrong) result is proved.
* C52: Proved for unsigned types and for signed types with n below the width. False for signed types at full width: the mask is shifted arithmetically, the exact wrong output is proved. write_int_be(0, v) panics in debug builds. Exact behaviour for every n: C52_exact.
* C64: Fails for Fibonacci: a truncated codeword without a one is reported as the end of the stream; exact behaviour proved. Holds for all other codes.
* C65: Fails for Omega: encode(0) writes the codeword of 1.
* C66: When exactly decoders panic is C106. Unary, Gamma and Delta in all builds; everything in release builds; in debug builds Omega, Comma, Fibonacci and Lift0<Unary> panic on malformed input (counterexamples), and only beyond 76, 64 and 91 bits respectively.
* C69: Fails for n = 1 (never returns) and n = 0 (division by zero); n >= 64 panics in debug builds. Exactly when encoding hangs, for all digit sizes and nestings: C96.
* C70: Fails for reserve and reserve_exact when the vector has spare but insufficient capacity (counterexample); holds for with_capacity, block_reserve, and reserve on full vectors; C70_reserve_iff shows these cases are exactly the good ones for an exact allocator.
* C74: Proved: reads always panic for count > 2*nbits, and for any count > nbits at block-aligned starts in debug builds; for other cases the code silently truncates (proved counterexamples). Exact behaviour for every count: C98_get_bits, C98_set_bits.
* C75: Holds when position*nbits fits in u64; otherwise the index wraps and block 0 is overwritten (proved counterexample). Exact behaviour at every index: C99_vec_bool_set_block.
* C76: Proved on 64-bit targets and for widths below the block size. On 32-bit targets block-sized elements alias: get(2^32) returns element 0 (proved counterexample). Exact behaviour at every index: C99_int_vector_index.
* C77: Unary, Gamma, Delta, Fibonacci in full. Omega only for debug builds on 64-bit targets if fewer than 2^32 bits are read (the shift amount is taken modulo 2^32), with counterexamples for release builds and 32-bit targets (exactly when: C106_omega_only); Comma up to leading zero digits, with a counterexample.
* C81: Fails on 64-bit targets for positions >= 2^61 (counterexample); proved below that and on 32-bit targets. Exact behaviour at every index: C99_vec_bool_set_block.
* C83: Exact: holds when the slice is a whole number of blocks long; otherwise construction panics, because get_block on the partial last block does (C35).
* C84: Exact: the bits of the whole blocks are read correctly, the bits of a partial last block panic; a slice of whole blocks is a lawful source.
* C87: The exact order is proved: first differing block, then the last differing bit in it; so it depends on the block size. Holds for vectors of at most one block; counterexample with nine bits.
* C88: The exact order is proved (block order of the packed bits). Lexicographic for block-sized elements; for narrower ones later elements of a block decide first: [1,0] < [0,1] with 4-bit elements in u8 blocks.
<!-- end findings -->

Also, among the properties proved in full: README.md promises `O(lg lg n)`-time select; an unsuccessful select over
`n` bits asks exactly `⌊lg n⌋ + 1` rank queries (C90).

### The log of wrong programs

Each line of `seeded/LOG.jsonl` is one attempt: a definition of the model was edited in a copy of the project and the
copy was built.

* `result` (absent in the oldest lines, which were all killed or tightened) is `killed`, `survived` or `did not compile`.
* `failed_directly` lists the declarations whose proofs no longer check; `theorems_failed` lists the property theorems
  among them and those that use them. A module is not built once a module it imports has failed, so further theorems may be false
  that are not listed.
* A killed edit shows that a proof script no longer checks, not that the theorem's statement became false. Where the
  claim broken is named and is a consequence of the theorem's statement, the statement is false.
* Lines whose claim says that the edit was made mechanically come from a script that applies one small edit (a comparison, a
  constant, an operator, a width …) at one place of the model at a time. Each names no claim, and of the failures only the first
  ones are listed.
* Survivors are kept in the log. Either the edit does not change behaviour or does not falsify any stated property
  (`note`), or a theorem was added or tightened (`theorems_tightened`).

## 5. Trusted base

* Lean 4.33 kernel. Axioms: at most `propext`, `Classical.choice`, `Quot.sound`; checked for every declaration by
  `Verif/Axioms.lean`, and listed per theorem in section 6. No `sorry`, no `native_decide`, no `bv_decide`.
* Mathlib is used in four modules: `Props/RankSpace.lean` (a tactic), `Props/Universal.lean`, whose statements (C132)
  rely on Mathlib's definitions of the real logarithm `Real.logb`, the golden ratio and finite sums,
  `Props/CodeSpace.lean`, whose statements (C142) rely on the rational numbers, finite sums and `Set.ncard`, and
  `Props/GapSpace.lean`, whose statements (C162) rely on `Real.logb` and finite sets.
* The reading of the Rust source into the model. Each definition cites file and lines. The model is not extracted
  from the source by a tool.
* Rust and std semantics assumed:
  * integer operations: `+ - *` and shifts panic with overflow checks and wrap (or mask the amount) without;
    `as` truncates; `wrapping_*`, `checked_*`, `leading_zeros`, `count_ones` as documented;
  * `Vec` as a list (push, pop, truncate, resize, index), its capacity only through the documented contract (`Alloc.Lawful`);
    `VecDeque` as a queue; derived `Eq`/`Ord` as structural/lexicographic, derived `Hash` as in `Model/Derived.lean`;
  * `byteorder`'s fixed-width reads and writes; `{}`/`{:?}` print integers in decimal; `write!`
    calls `write_str` once per literal piece and integer argument, and derived `Debug` writes the layout in `Model/Format.lean` and,
    with options, the one in `Model/FormatOpts.lean`;
  * `mem::size_of` of the element types is a parameter.
* User-supplied parts are parameters with laws as hypotheses: bit stores, sinks and sources (which may fail),
  underlying codes, rank structures, allocators.

Modelled: every function of `src/` outside test modules, except those listed next.

Not modelled: allocation failure and the `isize::MAX`-bytes limit of `Vec`, except for `BitVector` and `IntVector` in
`Verif/Model/Memory.lean` and the rank directories, the stacks of the encoders and the vector of a `BitBuffer` in
`Verif/Model/MemoryMore.lean`, where a refused request ends the call; memory safety; timing;
implementations of `BlockType` outside the crate that do not behave like unsigned integers, or whose methods have side
effects (types that override its default methods are in `Verif/Model/OwnBlocks.lean`);
`io::Write`/`io::Read` errors below `byteorder` are modelled as arbitrary failures of the underlying stream.

## 6. Axioms of each property theorem

<!-- generated -->

**no axioms** (17 theorems): `C34_range_forms`, `C42_jacobson`, `C42_rank9`, `C42_bin_search_select`, `C42_bin_search_rank`, `C61_max`, `C71_stack_only`, `C71_select`, `C103_rank`, `C103_compose`, `C103_bin_search_select`, `C108_block_io`, `C108_usize_exception`, `C138_logged`, `C138_logged_mut`, `C151_sources`, `C183_unique`

**`propext`** (8 theorems): `C70_shrink`, `C103_bit_vec`, `C103_select`, `C106_unique`, `C137_slice_new`, `C169_one_forest`, `C171_no_bits`, `C184_unique`

**`Quot.sound`** (1 theorems): `C137_cache`

**`Quot.sound`, `propext`** (131 theorems): `C01_nth_mask`, `C02_get_bit`, `C03_panics_partial`, `C03_panics_debug`, `C03_release_wrap_counterexample`, `C04_floor_lg`, `C04_ceil_lg`, `C05_ceil_div_partial`, `C05_overflow`, `C07_exact_partial`, `C13_release_wrap_counterexample`, `C74_truncates`, `C75_set_block_alias`, `C17_too_large_partial`, `C17_release_counterexample`, `C17_too_large_partial`, `C18_release_counterexample`, `C25_width_validated`, `C76_index_truncated`, `C76_set_truncated`, `C30_nth_past_end`, `C32_new_out_of_bounds`, `C35_partial_block_example`, `C35_block_alias`, `C38_short_vectors_panic`, `C40_jacobson`, `C40_words_debug_partial`, `C40_words_release_counterexample`, `C40_broadword_debug_partial`, `C40_broadword_release_counterexample`, `C40_rank0`, `C43_average`, `C47_past_end_counterexample`, `C42_jacobson_inner`, `C42_rank9_inner`, `C51_read`, `C52_read`, `C52_zero_bits`, `C52_too_wide`, `C53_read_int`, `C53_read_int_be`, `C53_lawful`, `C53_lawful_be`, `C08_bytes`, `C60_largest`, `C61_lift0`, `C61_roundtrip`, `C68_lengths`, `C70_reserve_counterexample`, `C70_block_reserve`, `C70_overflow_panics`, `C71_total`, `C71_stack_only_iff`, `C71_vec`, `C71_box`, `C71_tuple`, `C71_vectors`, `C71_rank9`, `C71_jacobson`, `C80_refused_length`, `C81_counterexample`, `C83_counterexample`, `C84_counterexample`, `C87_counterexample`, `C88_counterexample`, `C91_rank9`, `C95_bit_vector_new`, `C95_int_vector`, `C95_int_vector_new`, `C95_rank9`, `C95_jacobson`, `C97_ceil_div`, `C97_ceil_div_nbits`, `C97_mul_div_nbits`, `C102_ceil_div`, `C102_ceil_div_overflow`, `C104_counterexample`, `C106_lift0_panics_iff`, `C106_gamma_pos`, `C106_delta_builds`, `C107_wrappers`, `C107_broadword`, `C107_space`, `C107_added_panics`, `C109_only_fails`, `C109_unlimited`, `C109_isize_max_not_enough`, `C125_start`, `C126_rank9_only_fails`, `C126_jacobson_only_fails`, `C126_jacobson_granted`, `C128_only_fails`, `C129_lift0`, `C129_truncated`, `C129_unambiguous`, `C129_kraft`, `C129_streams`, `C130_unary`, `C130_gamma`, `C130_delta`, `C130_omega`, `C130_lift0`, `C134_average`, `C136_skip_forward`, `C136_rev`, `C136_skip_past_end`, `C136_step_by_end`, `C137_slice`, `C137_jacobson`, `C137_rank9`, `C138_rank9_new`, `C138_jacobson_new`, `C138_rank9_rank1`, `C138_slice_new`, `C138_slice`, `C138_get_block`, `C146_ceil_div`, `C151_source_default`, `OwnBlk.C152_flags`, `OwnBlk.C152_each_rank`, `C154_read`, `C154_read_be`, `C155_count_in`, `C166_window`, `C166_backwards`, `C166_reverse`, `C171_add`, `C174_init`, `C186_push`, `C186_pop`, `C186_calls`

**`Classical.choice`, `Quot.sound`, `propext`** (631 theorems): `C01_low_mask`, `C01_low_mask_default`, `C02_get_with_bit`, `C02_with_bit_panics`, `C03_get_bits`, `C03_with_bits`, `C06_address_round_trip`, `C06_address_of_pair`, `C07_nbits`, `C07_lg_nbits`, `C07_counterexamples`, `C09_get_bit`, `C09_get_bits`, `C09_get_bits_bit`, `C10_set_bit`, `C10_set_bits`, `C11_zero_width_partial`, `C11_end_panics`, `C12_defaults_from_get_block`, `C12_get_block_from_get_bit`, `C12_vec_bool`, `C12_block_array`, `C12_set_block_from_set_bit`, `C13_prim_read`, `C13_prim_write`, `C13_prim_law`, `C74_wide_partial`, `C75_vec_bool_set_block_partial`, `C14_bit_vector_is_list`, `C15_equality_is_extensional`, `C16_out_of_range`, `C17_fill`, `C18_resize`, `C19_push_block`, `C19_align_block`, `C20_stack`, `C21_storage`, `C22_int_vector_is_list`, `C23_set_isolated`, `C24_too_large_panics`, `C24_fill_wraps`, `C25_width_invariant`, `C26_equality`, `C27_reinterpret`, `C28_bit_view`, `C28_lawful`, `C73_bit_vector_order`, `C73_int_vector_order`, `C76_out_of_range_partial`, `C76_out_of_range_64`, `C29_int_iter`, `C29_bit_iter`, `C29_collect`, `C30_exact_size_partial`, `C30_exact_size_bits_partial`, `C30_exact`, `C30_exact_bits`, `C30_count_truncated`, `C31_binary`, `C31_debug`, `C32_window`, `C32_lawful`, `C33_write`, `C33_lawful`, `C34_flatten`, `C34_nested`, `C35_blocks_partial`, `C35_set_block_partial`, `C35_partial_block_panics`, `C36_words`, `C37_jacobson`, `C37_bit_vector`, `C38_buildable_partial`, `C39_rank9`, `C39_bit_vector`, `C39_vec`, `C40_rank9_partial`, `C40_rank9_silent`, `C40_rank9_silent_all`, `C40_broadword_release`, `C40_words_rank0_release`, `C40_broadword_rank0_release`, `C41_rank_laws`, `C43_binary_search`, `C44_select_partial`, `C44_max`, `C44_max_release`, `C44_max_debug`, `C45_rank_of_select`, `C45_select_of_rank`, `C45_select_agree`, `C45_tower`, `C46_count_ones`, `C47_select_partial`, `C47_broadword_select_partial`, `C47_large_r`, `C47_never_panics`, `C47_exact`, `C47_zero`, `C47_middle`, `C47_middle_low`, `C48_u_le8`, `C48_u_nz8`, `C49_le8_partial`, `C49_different_signs`, `C50_broadword_rank`, `C42_bit_buffer`, `C51_write`, `C51_roundtrip`, `C52_write_partial`, `C52_roundtrip_partial`, `C52_signed_full_width`, `C52_signed_counterexample`, `C52_exact`, `C54_buffer_is_file`, `C54_constructors`, `C54_bit_vector`, `C54_write_then_read`, `C08_roundtrip`, `C55_unary`, `C55_roundtrip`, `C56_gamma`, `C56_roundtrip`, `C57_delta`, `C57_roundtrip`, `C58_omega`, `C58_roundtrip`, `C59_comma`, `C59_roundtrip`, `C60_fibonacci`, `C60_implements`, `C60_too_large`, `C60_roundtrip`, `C62_all`, `C62_streams`, `C62_deque`, `C62_bit_buffer`, `C62_gamma_delta`, `C63_prefix_free`, `C63_unambiguous`, `C64_end`, `C64_truncated_partial`, `C64_fibonacci`, `C64_fibonacci_counterexample`, `C65_zero_partial`, `C65_omega`, `C66_total`, `C66_release`, `C66_debug_partial`, `C66_omega_panics`, `C66_comma_panics`, `C66_fibonacci_panics`, `C66_lift0_unary`, `C67_sink_failures`, `C68_comma`, `C68_fibonacci`, `C68_written`, `C69_terminates_partial`, `C69_comma1_diverges`, `C69_comma0`, `C69_wide`, `C77_only_codewords`, `C77_omega_partial`, `C77_omega_32_counterexample`, `C77_omega_release_counterexample`, `C77_comma_partial`, `C77_comma_counterexample`, `C70_with_capacity`, `C70_reserve_partial`, `C70_reserve_then_push`, `C70_reserve_iff`, `C70_change`, `C70_reallocations`, `C72_rank9`, `C72_jacobson`, `C78_caught_panics`, `C78_unchanged`, `C79_caught_panics`, `C79_unchanged`, `C80_setters`, `C81_bool_vec_set_block_partial`, `C81_bool_vec_set_block_p32`, `C82_capacity_ge_len`, `C82_no_reallocation`, `C83_rank9_partial`, `C83_jacobson_partial`, `C84_read_bit_partial`, `C84_whole_blocks_partial`, `C85_bit_vector`, `C85_int_vector`, `C85_bit_vector_bytes`, `C85_int_vector_bytes`, `C86_address_order`, `C87_exact`, `C87_one_block_partial`, `C88_exact`, `C88_lexicographic_partial`, `C89_any_function`, `C89_terminates`, `C90_select_cost`, `C90_unsuccessful`, `C90_attained`, `C91_jacobson`, `C91_get_bits`, `C92_monotone`, `C92_bounds`, `C93_kraft`, `C94_reads`, `C94_blocks`, `C94_rank9`, `C94_jacobson`, `C95_bit_vector`, `C95_iterators`, `C95_format`, `C95_select`, `C95_bit_buffer`, `C96_decode_ends`, `C96_fibonacci_always_ends`, `C96_unary_endless`, `C96_encode_hangs_iff`, `C97_low_mask`, `C97_word_fields`, `C97_word_bits`, `C97_word_spans`, `C97_word_rank`, `C98_get_bits`, `C98_set_bits`, `C98_instances`, `C98_bit_buffer`, `C99_slice_get_block`, `C99_slice_set_block`, `C99_int_vector_index`, `C99_get_random`, `C99_set_random`, `C99_fill_wraps`, `C99_vec_bool_set_block`, `C100_bit_vector`, `C100_int_vector`, `C101_aligned`, `C101_is_empty`, `C101_block_truncate`, `C101_push_pop_block`, `C102_count_ones`, `C102_select1`, `C102_u_nz8`, `C102_u_le8`, `C102_floor_lg`, `C102_ceil_lg`, `C102_code_decode`, `C102_code_decode_tests`, `C102_fibonacci`, `C103_search_through`, `C103_tower`, `C104_rank9`, `C104_jacobson_partial`, `C104_jacobson_whole_partial`, `C105_rank9`, `C105_jacobson`, `C106_elias`, `C106_omega`, `C106_omega_cases`, `C106_omega_panics`, `C106_omega_panics_iff`, `C106_omega_only`, `C106_comma`, `C106_comma_widths`, `C106_comma_panics_iff`, `C106_fibonacci`, `C106_fibonacci_panics_iff`, `C106_all`, `C107_bitvec`, `C107_sequences`, `C107_vectors`, `C107_rank_select`, `C107_codes`, `C107_streams`, `C108_bit_vector`, `C108_int_vector`, `C108_reach_bits`, `C108_reach_ints`, `C108_iterators`, `C108_len_exception`, `C108_bit_buffer`, `C108_rank_select`, `C108_codes`, `C109_bit_vector`, `C109_int_vector`, `C109_bounded`, `C109_rank`, `C109_reserved_bits`, `C109_reserved_ints`, `C110_binary`, `C110_debug`, `C110_prefix`, `C111_vectors`, `C111_bit_vector`, `C111_binary`, `C111_int_vector`, `C111_address`, `C111_nested`, `C111_jacobson`, `C112_bit_vector`, `C112_int_vector`, `C112_exact_allocator`, `C113_save`, `C113_load`, `C113_roundtrip`, `C113_same_type`, `C113_big_endian_counterexample`, `C114_lookup`, `C114_overwrite`, `C115_read`, `C115_write`, `C115_bit_vector`, `C115_int_vector_write`, `C115_int_vector_read`, `C116_resync`, `C116_damage`, `C116_short`, `C116_ones`, `C116_gamma_counterexample`, `C117_programs`, `C117_from_start`, `C118_laws`, `C118_int_iter`, `C118_bit_iter`, `C118_hash`, `C118_bit_hash`, `C119_encode`, `C119_valid`, `C119_roundtrip`, `C119_untouched`, `C120_push_bits`, `C120_push_ints`, `C120_bit_vector`, `C120_int_vector`, `C120_bit_states`, `C120_int_states`, `C120_bit_buffer`, `C121_any`, `C121_final`, `C121_unwinds`, `C122_programs`, `C123_sequence`, `C124_recode`, `C124_copy`, `C124_there_and_back`, `C124_lossless`, `C124_injective`, `C124_comma_counterexample`, `C125_chunks`, `C125_parse_append`, `C125_timely`, `C125_bit_vector`, `C125_roundtrip`, `C126_rank9`, `C126_jacobson`, `C126_jacobson_whole`, `C126_answers`, `C126_pipeline`, `C127_encode`, `C127_only_fails`, `C127_ends`, `C127_enough`, `C127_omega`, `C128_buffer`, `C128_encode`, `C128_new`, `C128_roundtrip`, `C129_elias`, `C129_encode`, `C129_only_codewords`, `C129_outcome`, `C130_fibonacci`, `C130_comma`, `C130_elias`, `C130_elias_header`, `C130_decoders`, `C131_unary`, `C131_unary_damage`, `C131_comma`, `C131_comma_damage`, `C131_comma_counterexample`, `C132_entropy_bound`, `C132_gamma`, `C132_delta`, `C132_omega`, `C132_omega_optimal`, `C132_fibonacci`, `C132_comma`, `C132_unary_counterexample`, `C133_get_bit`, `C133_get_block`, `C133_round_trip`, `C133_set_bit`, `C133_set_block`, `C133_push`, `C133_neither_get`, `C133_neither_set`, `C134_arithmetic`, `C134_search`, `C134_any_function`, `C134_unsigned`, `C134_select`, `C134_inverse`, `C134_select_max`, `C134_bool`, `C135_gamma_delta`, `C135_gamma_omega`, `C135_gamma_fibonacci`, `C135_gamma_comma`, `C135_gamma_word`, `C135_delta_omega`, `C135_delta_fibonacci`, `C135_delta_comma`, `C135_delta_word`, `C135_omega_fibonacci`, `C135_omega_comma`, `C135_omega_word`, `C135_fibonacci_comma`, `C135_fibonacci_word`, `C135_comma_word`, `C135_unary`, `C136_iter_forward`, `C136_iter_exact`, `C136_bit_iter`, `C136_start`, `C136_start_bits`, `C136_take_forward`, `C136_skip`, `C136_take`, `C136_collect`, `C136_collect_exact`, `C136_step_by`, `C136_step_by_forward`, `C136_step_by_back`, `C136_step_by_len`, `C136_step_by_nth_back`, `C136_usize`, `C137_defaults`, `C137_select`, `C137_buffer`, `C137_still`, `C137_still_defaults`, `C137_rank9_correct`, `C137_jacobson_correct`, `C137_select_correct`, `C137_codes`, `C138_jacobson_rank1`, `C138_get_bit`, `C138_get_bits`, `C138_read_bit`, `C138_set_bit`, `C138_set_bits`, `C138_select_rank9`, `C139_lg_nbits`, `C139_address`, `C139_other_widths`, `C140_gamma`, `C140_delta`, `C140_omega`, `C141_block_choice`, `C141_exceptions`, `C142_streams`, `C142_elias`, `C142_unary`, `C142_gamma`, `C142_delta`, `C142_omega_step`, `C142_omega`, `C142_comma`, `C142_fibonacci`, `C142_decode`, `C142_decode_omega`, `C143_last_wins`, `C143_same`, `C143_any_order`, `C143_bit_vector`, `C143_int_vector`, `C144_rank9`, `C144_jacobson`, `C144_short`, `C145_overflow`, `C145_constant`, `C145_constant_wrong`, `C145_line_same`, `C145_line_wrong`, `C146_random_bounds`, `C146_too_large`, `C146_reserve`, `C147_number`, `C147_vectors`, `C147_bit_vector`, `C147_address`, `C147_nested`, `C147_plain`, `C148_oblivious`, `C148_average`, `C149_rank9`, `C149_rank9_equal`, `C149_jacobson`, `C149_jacobson_equal`, `C150_jacobson_partial`, `C150_jacobson_roomy_partial`, `C150_counterexample`, `C151_default`, `C151_decode`, `C151_encode`, `C151_source`, `C151_sink`, `C151_roundtrip`, `C151_omega_words`, `C151_sink_default`, `OwnBlk.C152_crate`, `OwnBlk.C152_inherit`, `OwnBlk.C152_default_mask`, `OwnBlk.C152_same`, `OwnBlk.C152_vectors`, `OwnBlk.C152_inherent`, `OwnBlk.C152_bit_vector`, `OwnBlk.C152_int_vector`, `OwnBlk.C152_rank_select`, `OwnBlk.C152_rank_bit_vector`, `OwnBlk.C152_each`, `C153_rank9`, `C153_jacobson`, `C153_error`, `C153_right`, `C153_still_right`, `C153_select`, `C154_write`, `C154_write_be`, `C154_write_be_signed`, `C154_get_bits`, `C154_set_bits`, `C154_bit_vector`, `C155_last_up_to`, `C155_first_from`, `C155_collect`, `C155_bit_vector`, `C156_combine`, `C156_bit_vector`, `C156_count`, `C156_bit_vector_count`, `C157_sorted`, `C158_same_type`, `C158_little`, `C158_int_vector`, `C158_int_vector_same_type`, `C159_wavelet`, `C160_numeric`, `C160_omega`, `C160_comma`, `C160_vectors`, `C160_comma_vectors`, `C160_counterexamples`, `C161_trees`, `C162_gaps`, `C162_common`, `C162_gamma`, `C162_delta`, `C162_any`, `C163_formats`, `C163_prefix_free`, `C163_truncated`, `C163_canonical`, `C164_text_search`, `C165_canonical`, `C166_int_vector`, `C166_packed`, `C166_sort`, `C166_sort_int_vector`, `C166_search`, `C166_inverse`, `C167_copy`, `C167_move`, `C167_insert`, `C167_remove`, `C167_bit_vector`, `C168_queue`, `C168_new_queue`, `C169_parentheses`, `C170_variable_width`, `C171_has`, `C171_union`, `C171_bit_vector`, `C172_ranges`, `C173_sieve`, `C174_find`, `C174_join`, `C174_classes`, `C174_count`, `C174_out_of_range`, `C175_sort_down`, `C175_sort`, `C176_graph`, `C176_reach`, `C177_sum`, `C177_find`, `C177_add`, `C177_sums`, `C177_new`, `C178_has`, `C178_insert`, `C178_calls`, `C178_new`, `C179_close`, `C180_new`, `C180_get`, `C180_outside`, `C180_put`, `C180_entry`, `C181_ancestors`, `C181_unique`, `C182_more`, `C182_sums`, `C183_length`, `C183_new`, `C184_table`, `C184_least`, `C185_add`, `C185_bit_vector`, `C186_new`, `C187_compare`, `C187_bit_vector`, `C187_equal`, `C188_subtract`, `C188_bit_vector`, `C189_tick`, `C189_ticks`, `C189_bit_vector`
