# Formal model of ahKevinXy/go-web-tools in Lean 4

## Layout

| directory | content |
|---|---|
| `lean/Verif/Go/` | the fragment of Go semantics used by every model: panics as error values, slices, 64-bit wrap-around, UTF-8 strings, parts of package strings |
| `lean/Verif/Model/` | the code, function by function; each definition cites file and lines of `/repo` |
| `lean/Verif/Spec/` | small specifications that do not mention the model (queue, strict weak order, bag, paths, ...) |
| `lean/Verif/Proof/` | helper lemmas |
| `lean/Verif/Props/` | the property theorems `Cnn_...`, with concrete cases that meet their hypotheses beside them |
| `properties.jsonl` | the properties; `MANIFEST.json` says which theorems belong to each, and what is missing |
| `seeded/LOG.jsonl` | wrong programs tried: what was edited, which theorems failed, which were tightened |

Names: `Cnn_..._partial` is proved under an extra hypothesis that the property as written does not have; `Cnn_..._refuted`
proves that the property as written is false of the code (a finding, see the end). A `partial` claim in the manifest has one or
both; its note says what is missing.

## Conventions of the model

* `Go α := Except Panic α`. A Go run-time panic (index, slice bounds, division by zero, nil dereference, negative
  shift, explicit `panic`) is the value `.error p`. Every function that can panic returns `Go`.
* Loops are structural recursions on a *fuel* argument; running out of fuel is the distinguished error `.diverge`.
  A theorem that the result is `.ok` therefore contains termination, and non-termination is stated as
  "`.diverge` for every fuel".
* A mutating method returns the new state. Pointers are keys of an explicit heap wherever aliasing matters
  (list, reap, sliding-log strategies, timing wheel). Slices are `List`s; capacity is a parameter where it matters (C76, C84).
* 64-bit counters are `BitVec 64`/explicit wrap-around where a property is about them (rings, math, bloom, buckets);
  elsewhere unbounded `Int`/`Nat`, noted at the definition (timing wheel: times in milliseconds are unbounded).
* Map iteration order, random numbers, clock readings, database answers, directory listings, failures of the operating system and
  scheduling are inputs of the model, and theorems quantify over them.
* Concurrency: step relations. `Model/Mutex` and `Model/RWMutex` are generic machines (any number of threads, one action per
  statement inside a critical section) with a linearizability theorem; the limiters and the locked map are instances. The ring
  for one producer and one consumer, the delay queue and the timing wheel with its goroutines have machines of their own.
* Files: `Model/Fs` maps locations (lists of names) to directories and files; `..` is resolved lexically. `Model/FsLink`
  has symbolic links and walks paths step by step as Linux does; without links the two agree (C152). No permissions, one file system.

## Trusted base

* Lean 4.33.0's kernel. Axioms: at most `propext`, `Classical.choice`, `Quot.sound`; per theorem in the last section. No axioms of
  our own, no `sorry`, no `native_decide`, no `bv_decide`.
* The reading of the Go code: nothing is extracted mechanically. `/repo` is neither built nor run.
* The semantics of Go and its standard library as written in `Verif/Go` and in the models. Written out in Lean (hence trusted as a
  reading, not as a black box): UTF-8 decoding, the used parts of strings, strconv (FormatInt, ParseInt, Atoi), encoding/base64,
  encoding/hex, cipher CBC, path/filepath Clean/Join/Dir/Base/Ext, encoding/csv, encoding/json (maps of int32), `sort.Slice` as "any sorting function",
  `copy`, `append`, channels and `select` in the two queues, timers as "may fire once due".
* Parameters (arbitrary functions, theorems hold for all of them, sometimes under a stated law): the AES block functions and MD5 in C73–C76 and C116 (but C148, C150: the standards), maphash, unicode.ToLower/ToUpper beyond ASCII, float formatting, the database.
* Taken for granted: `sync.Mutex`/`RWMutex` exclude, sequential consistency of the modelled steps (no weaker memory
  model but in C151), memory never runs out, slices have fewer than 2^63 elements.

## What is modelled

| code | model | not modelled |
|---|---|---|
| common/math/math.go | Model/Math; Model/MathFloat, MathFloat32 (`Max`, `Min`, `Abs` on `float64` and `float32`); Model/Log2 (`Log2` on Go/Float64), Model/Log2Float (of a `float64`), Model/Log2Float32 (of a `float32`, on Go/Float32) | `math.Log` (a parameter) |
| common/container/heap, pqueue | Model/Heap: all; Model/HeapCost: with counters of `less` and `swap` | |
| common/container/reap, meap | Model/Reap, Model/Meap: all; Model/ReapWorld: several reaps; Model/MeapNan: keys not equal to themselves; Model/HandleMem: the arrays behind the slices | writing to an entry's memory (its fields are not exported) |
| common/container/ringbuffer/{fix,round,unbounded} | Model/Ring: all; Model/RingCost: with a counter of moved elements; Model/RingSPSC: goroutines; Model/RingTSO: store buffers | loads that are delayed or reordered |
| common/container/list, deque, stack | Model/LinkedList: all, with a heap of elements | |
| common/container/set | Model/Set; Model/SetFloat: `Set[float64]` | several goroutines (a Go map panics or is undefined then) |
| common/filter/bloom, common/hash | Model/Bloom, Model/Hash; Model/BloomSize: the sizes on real numbers; Model/BloomFloat: the sizes in float64; Model/BloomConc, Model/HashConc: several goroutines | `math.Log` (a parameter); seeds are inputs |
| common/limiter/* | Model/Limiter, Sliding, SlidingError, LimiterConc | monotonic clock readings (the sliding limiters also with arbitrary ones) |
| common/timer/delayqueue | Model/DelayQueue, DelayChannel; Model/DelayChannels: several channels and other takers | |
| common/timer/timingwheel | Model/TimingWheel, Model/TimingRun, Model/TimingFine; Model/Timing64: 64-bit times; Model/TimingWhole: the mutex, sleep and wakeup of the queue, the bounded channel and the cancellation; Model/TimingSet: the clock is set; Model/Schedule: the scheduler of `ScheduleFunc`; Model/TimingRestart: `Run` called again after a return; Model/TimingRuns: several calls of `Run` at a time | clock and expirations changing while `take` pops |
| gorm_tools/gorm.go, update.go | Model/Gorm: the batching functions and the statements they build; Model/GormTable: the other wrappers, on a table; Model/GormExec: what GORM v1.24.6 sends to the driver for db.Exec (`clause.Expr.Build`, `Statement.AddVar`; not in /repo, written from knowledge of its source; statements with @ left out), read by Spec/SqlExec (UPDATE … CASE and INSERT as MySQL does them: assignments from left to right); Model/JsonDump: the JSON dump of a record (an input of Model/Gorm) | gorm itself (what it makes of a call is stated in GormTable) |
| help/utils/base64.go, ints.go, strings.go, url.go, rand.go, math.go | Model/Base64, Strconv, Strings, Urls, Misc; Model/Round: `Round` on Go/Float64, Model/RoundSign: with the sign of zero; Model/Rand: `RandStr` with math/rand and its seed; Model/RandConc: several goroutines | the constants of math/rand's table (a parameter) |
| help/utils/md5.go | Model/Md5, Model/Aes (for any hash function and cipher); Spec/AesBlock, Spec/Md5Rfc: AES and MD5 after their standards; Model/Md5Digest: the buffer of crypto/md5 | the code of crypto/aes and of the block function of crypto/md5 (taken to compute the standards) |
| help/utils/maps.go | Model/SafeMap, SafeMapLock, SafeMapKeys, Misc, Json, JsonValue | values with their own MarshalJSON, structs, text of floats (a parameter) |
| help/utils/zip.go | Model/Paths, Model/Zip, Model/FsLink; Model/OpenFiles: descriptors | compression (an archive is its list of entries) |
| help/utils/files.go, times.go, csv.go, breakpoint_continue.go | Model/Fs, FsLink (symbolic links, paths walked step by step), Files, FileIo, FileSize, Sniff, Times, Calendar, Csv, Urls; Model/OpenFiles: descriptors; Model/UploadConc, CsvConc, MakeConc, CopyConc, MoveConc: chunks, rows, whole files and copies written, and files moved, by several goroutines; Model/MakeDuring: a file put together while its chunks change | `math.Log` (a parameter), time zone data (the offset is an input) |
| help/utils/{cmd,sys,runtime}.go | Model/Sys; Model/ShellInput: commands over several lines or reading stdin | shells that read ahead of the command; the shell and `kill` are parameters |
| tests, empty files | – | |

## Wrong programs

`seeded/LOG.jsonl` has one line per attempt: an edit of a model definition like a realistic bug, in a scratch copy, and the theorems
that no longer check. `failed` lists the first declarations that fail in each file; many are intermediate lemmas, on which the
property theorems rest. An edit may also break a proof script without making the claim false, so a failing lemma
alone does not show that the claim noticed; where no theorem failed although the claim had become false, a theorem was tightened or added
(`tightened`). Lines with empty `failed` are edits that change nothing a property speaks about, with the reason.

## Plan per property

(status and theorem names are in MANIFEST.json; this table says what is modelled and how it is proved)

| id | model | proof |
|---|---|---|
| C01–C04 | `BitVec w` functions of common/math | characterise bit length by `Nat.log2`/induction; lemma `x &&& (x-1)` |
| C05 | `Split` on 64-bit `Nat` arithmetic with explicit wrap | division arithmetic; "exactly m parts" refuted by witness |
| C06 | `Max`,`Min` over any order, `Abs` on `BitVec w` | case analysis |
| C07–C10, C17 | binary heap on `List`, index-checked reads, fuelled loops | generic d-ary heap invariant with a hole; permutation lemmas; history induction to a bag spec |
| C11, C12 | HeapN with the literal `k+4` window of the code | same generic invariant; refutation for n=5 (Pop) and n=2 (Remove); `_partial` for n≤4 |
| C13, C14 | Reap with an explicit heap of entries | index/handle invariant, simulation of the plain heap |
| C15, C16 | Meap with map of positions | position invariant, simulation of the plain heap |
| C18–C22, C24 | three rings on `BitVec 64` counters, `copy` semantics | refinement to a list queue; wrap-around refutation by induction over 2^64 operations |
| C23 | producer/consumer step machines (statement granularity) | refutation for Push/Pop, invariant for MPush/MPop |
| C25–C28 | pointer heap of elements and list headers | ring invariant: each list's `next`/`prev` cycle is the abstract sequence |
| C29–C31 | wrappers over the list model; map model | corollaries |
| C32–C44 | one step function per limiter with the clock reading as input | invariants over histories |
| C45 | generic mutex machine: any number of threads, micro-steps in the critical section | invariant: shared state = sequential execution of the commit log + the holder's prefix |
| C46–C50 | `BitVec 64` words, FNV-1; hash state machine | bit lemmas, history induction |
| C51–C55 | DelayQueue: sequential operations over the heap model and a step machine for Push/Take | invariants; deadlock and lost wakeup witnesses |
| C56–C63 | hierarchical wheel with buckets, queue, timers | invariants over histories, witnesses for AfterFunc/Run |
| C64–C69 | batching functions with the database as a parameter (trace of statements) | induction over the record list / permutation of map entries |
| C70–C76 | base64, strconv, CBC+PKCS7, hex | structural proofs |
| C77–C79 | file-system map, chunk names as strings | history induction, injectivity of chunk names |
| C80–C84 | Go strings as bytes with UTF-8 decoding | list lemmas, non-interference |
| C85–C87 | lexical path cleaning, URL references | induction on path components |
| C88–C97 | small functional models | direct |
| C98 | the list model with the zero header | the ring invariant after `lazyInit`; refutation for the methods without it |
| C99 | the machine of C57–C61 with the sleep of the queue | witness run |
| C100 | the statement text as bytes | parsing back the text; refutation by names with special bytes |
| C101, C102 | URL texts as a browser splits them | case analysis on the first bytes |
| C103–C107 | the file-system map of C77–C79 | invariants (files have directories above them), witnesses |
| C108–C110 | writer and reader of encoding/json for maps of int32 | reader/writer simulation member by member; fuel adequacy |
| C111, C112 | the reader of encoding/csv as a machine over bytes | runs over the texts of a small grammar |
| C113, C114 | archives as lists of entries; the file-system map | induction over the entries; witnesses for colliding names |
| C115 | the file-system map of C77 with failing reads and writes | induction over the chunks |
| C116–C118 | the file-system map; C70, C75 | unfolding to the library functions |
| C119 | floating point numbers as the numbers they stand for; the logarithm as a parameter | error bounds of rounding; index bound from the accuracy of the logarithm |
| C120 | days of the calendar | numerals of fixed width are ordered as numbers |
| C121 | the table of net/http/sniff.go | first matching signature; exact prefixes |
| C109, C112 exact | grammars of RFC 8259 and of tables, apart from the readers | soundness and completeness of the parser by induction on fuel and on the grammar |
| C122 | the writer of encoding/json for nested values; the grammar of C109 | structural induction; the grammar is unambiguous, so the text is injective |
| C123 | paths of C27 with a working directory | `Clean` of an absolute path is written from the place it leads to |
| C124 | a shell that executes lines; big-step relation as specification | induction over the run |
| C125 | a table of processes | case analysis |
| C126–C129 | tables as lists of rows with a check of keys | row by row (`Forall₂`), all or nothing |
| C130 | the machine of C51–C55 with the goroutine of `Channel`, its channel and a reader | invariant (first in, first out), refinement to the machine of the queue, witness run |
| C131 | texts of numbers | parsing back |
| C132 | the writer of C122 and the reader of C109 in sequence | induction on the nesting; the grammar is unambiguous |
| C133 | `float64` as rational numbers with rounding to 53 places, overflow and NaN (Go/Float64) | rounding gives a nearest representable number; relative error bounds; witnesses by evaluating the rounding |
| C134 | the same; the logarithm of the fraction as a parameter | bounds of the logarithm, rounding cannot reach the next whole number below 2^48 |
| C135 | real numbers | `1 - 2^-(1+d) ≤ 2^-(1-d)`, so the estimate at the rounded number of probes is near the optimum |
| C136 | the heap of C01–C06 with the cells of its array and the array of the caller | simulation through the operations `less` and `swap`; the cells behind the heap are a frame |
| C137 | any number of the reaps of C12–C14 over one memory of entries (Model/ReapWorld) | simulation of each reap alone: the memory is split by owner, and an operation touches only the entries of its reap |
| C138 | the meap of C15, C16 with an index that loses keys which are not equal to themselves (Model/MeapNan) | simulation by a meap whose keys carry a fresh number each time |
| C139 | bit patterns of `float64` and what they stand for (Model/MathFloat) | case distinction on sign, exponent and fraction |
| C140 | the machine of C56–C60 with the steps of `add` apart (Model/TimingFine) | invariant over the list of goroutines in `add` and their timers; the machine of C56–C60 embedded; witness runs, and blocking is stable |
| C141 | operations of the methods on the read-write mutex, with waiting writers; callbacks as nested calls (Model/SafeMapLock) | lock depths as invariant; what a goroutine itself holds dooms it; measure for termination; witness run |
| C142 | a Go map with keys that cannot be hashed or are not equal to themselves; entries numbered by creation; `range` as a relation (Model/SafeMapKeys) | invariant (numbers and keys are unique); what is seen and what is left make up the map |
| C143 | seconds, the offset of the zone and the calendar computation of package time (Model/Calendar) | the year and its day are determined by the day number; induction day by day |
| C144 | the filter of C46–C48 with `f.bits[index] \|= m` as a read and a write, any number of goroutines (Model/BloomConc) | invariant (bits come from calls; one adder: bits of finished seeds are set); witness run |
| C145 | the hasher of C50 with its three steps apart (Model/HashConc) | invariant (what is written is a suffix of the writes); witness run |
| C146 | the statements of C64–C69 with GORM's expansion of place holders (Model/GormExec) | induction along the text; cancellation of texts from the left |
| C147 | the same and a database with one table (Spec/SqlExec) | one batch is one map of the rows; maps with distinct ids compose; induction on the batches |
| C148 | AES on lists of bytes (Spec/AesBlock) | each layer has an inverse; the mixing of columns is linear, so its inverse is checked byte by byte (256 cases each); induction on the rounds |
| C149 | as C73 | blocks of the mode one by one; two explicit attacks |
| C150 | MD5 on lists of bytes (Spec/Md5Rfc), the buffer of crypto/md5 (Model/Md5Digest) | invariant between buffer, registers and bytes written; a known collision and its extension by any ending |
| C151 | the machines of C23 with a buffer of stores per processor | invariant over every beginning of the producer's buffer; a run where the counter overtakes the cell; for any order an invariant over the memory as it will be, since stores to different places commute |
| C152 | a file system with links, walked element by element (Model/FsLink), and a relation for where paths lead (Spec/Walk) | induction on the elements and the number of links, both directions |
| C153 | as C152 | from the relation; case analysis of the last element |
| C154 | `MkdirAll` along the reversed elements | induction on the elements; walks are kept by more directories |
| C155 | as C152 | the last name is looked up where the rest leads |
| C156 | as C152 | walks do not depend on the contents of files |
| C157 | `unzipLoop` on it | the clean path is what is kept of the target and the names; names stay below a directory without links; induction on the entries |
| C158 | `rename` on the file system with links | entries are looked up where the rest of the path leads; making directories on the way keeps the walks |
| C159 | `scanDir` on it (Model/ScanLink) | links as files give a tree without links, on which the induction of C89 applies; a name below a directory needs no more links |
| C160 | `float64` with rounding (Model/BloomFloat) | relative errors of the operations add up; `math.Ln2` against the series of log 2; the proof of C135 with room for the errors |
| C161 | the machine of C140, with the guard `Paced` | every expiration and every timer fits its slot at the time of the wheel, a slot has one such time; goroutines inside `add` have read the time of the wheel |
| C162 | the machine of C140 with wrapping arithmetic (Model/Timing64) | a wheel is made only for an expiration beyond it, so intervals are at most wheelSize times the greatest time; step by step equality; witness runs |
| C163 | the loops of Model/Heap with counters of less and swap (Model/HeapCost) | erasing the counters gives Model/Heap; levels below a position by log2; New by summing heights (double counting); the container as witness of the swaps; programs whose less and swap count themselves as witness of all counters |
| C164 | the unbounded ring with a counter of moved elements and the greatest length (Model/RingCost) | moved ≤ capacity is invariant, since growing moves at most the old size and at least doubles it; growth only when the new length exceeds half the new size |
| C165 | the helpers that open files in a process with a limit of descriptors; `defer` as a list of handles (Model/OpenFiles) | what is open at the end is what was open before: handles given out later are larger; with enough free descriptors the result is that of the other models; induction over entries and files |
| C166 | the cells of Model/Ring | invariant: the cell of the j-th last accepted element is `in - j` modulo size; induction over the history |
| C167 | the pointer fields of Model/LinkedList; reachability is the reflexive transitive closure | nodes of a segment point into the segment; the representation relation of C25 |
| C168 | Model/TimingWhole: Model/TimingFine with the mutex, flag, wakeup channel and timer of the queue, the goroutine of `channel`, the bounded channel and the context | simulation by Model/TimingFine; invariant on the number of goroutines in the critical section, the flag and the senders; explicit paths; stuck states are closed under all steps |
| C169 | Model/Bloom, Model/BloomSize | counting of tuples of hashes: classes modulo the size, products, exponential bounds |
| C170 | Model/Rand: `RandStr` with `math/rand` | Schrage's method is multiplication modulo a prime; closed form of the state; simulation by Model/Misc; pigeonhole |
| C171 | Model/TimingSet: the timing wheel when the clock is set | simulation by a wheel whose clock is never set; explicit executions from every state |
| C172, C173 | Model/Sliding: the sliding limiters with arbitrary clock readings | a limiter that forgets; potential argument over the settings back; explicit histories |
| C174 | Model/Schedule: `ScheduleFunc` with its scheduler, on Model/TimingFine | invariant: the starts so far and the one to come are a chain of the scheduler; explicit executions, one for every number of starts |
| C175 | Model/UploadConc: uploads of chunks by several goroutines, one action per call of the operating system | invariants: the chunk agrees with the content up to where the last creator has got; provenance of every byte; concrete executions |
| C176 | Model/CsvConc: `WriteCsv` by several goroutines | invariant: whole rows, every known end of the file is the end of a row; explicit executions for every number of rows |
| C177 | Model/DelayChannels: any number of calls of `Channel` on one queue | invariants: who took what; somebody is awake or covers the first entry with a timer; explicit execution with a reader that has gone |
| C178 | Model/TimingRestart: calls of `Run` one after the other on one wheel | the invariants of C58 with the lost buckets at the end of the channel; a bucket out of sight stays out of sight while its expiration is kept |
| C179 | Model/HeapShared: the cells of the array of a heap | induction on the history: the cells behind the heap form a stack; a cell behind the heap before and after a call is not touched |
| C180 | Model/MakeConc: calls of `MakeFile` with one file name, one action per call of the operating system, files as inodes | invariant: every file is its old content and the logged pieces; the pieces of a call are a prefix of its chunks; while nobody has failed there is one file, at the path; concrete executions |
| C181 | Model/CopyConc: calls of `CopyFile`, one action per read and write | invariants: every byte and every buffered byte is at its old position; for one content, the file has it up to the furthest call and the old bytes behind; concrete executions |
| C182 | Model/MoveConc: calls of `FileMove`, one action per call of the operating system | invariants: a source moved is empty, a destination not yet moved to is empty, so renaming replaces nothing; concrete executions |
| C183 | Model/MakeDuring: `MakeFile`, uploads and removals, one action per call of the operating system | invariants: files, buffer and pieces are beginnings of the chunks; a complete chunk stays so and is read to its end; concrete executions |
| C184 | Model/TimingRuns: any number of calls of `Run`, each with its channel and its step | the state with all buckets of the calls in one channel and all timers in hand counted as stopped satisfies the invariant of one `Run`; the timers in hand and the locked buckets are distinct; concrete executions |
| C185 | Model/RandConc: calls of `RandStr`, one action per `Seed` and `Int63` of the locked source | invariant of each call; simulation of the undisturbed call by C170's in both directions; executions built from C170's |
| C186 | Model/Log2Float: `math.Log2` with its special cases | rounding is monotone and near; real logarithms from Mathlib; near -1 the results are multiples of 2^-53 |
| C187 | Model/HandleMem: the cells behind the slices of Reap and Meap | refinement to a bag of handles or a map together with a list of cells; invariant on that list; position of a cell under the balance of pushes and removals |
| C188 | as C133 | rounding to a nearest representable number is monotone; an operation that keeps the infinities and the order of finite numbers keeps the order |
| C189 | Model/Log2Float32, Go/Float32 | C186 and one more rounding; every float32 but 1 is 2^-24 away from 1, so the absolute error of C186 is small against the logarithm |
| C190 | Model/RoundSign | a positive factor, a positive divisor and Trunc keep the sign bit; a sum of two float64 is never rounded to zero |
| C191 | bit patterns of `float32` (Model/MathFloat32) | as C139; the pattern of a number is its last place and its digits put side by side |
| C192 | Model/ShellInput: the input of the shell as bytes, of which commands take any number | the runs as a relation (without fuel); induction over it, and on the length of the input that a run exists; C124 is the case in which nobody reads |
| C193 | Model/Set with the `==` of float64 on bit patterns (Model/SetFloat) | as C31 but without reflexivity; the keys unequal to themselves are counted apart, no call takes one away |
| C194 | Model/Heap with the `<` of Model/MathFloat | `<` is a strict weak order on what is no NaN, so C07 and C09 apply to that subtype; the heap does the same with the elements as they are (naturality) |
| C195 | Model/Limiter | invariant: what was issued lies between half of the rate and the rate up to `lastTime`, as d < 2 * floor(d) for d ≥ 1; refutation by induction on the visits |

## Findings

Proved of the model of the code as it is; each contradicts a property as written in `properties.jsonl`.

* `C05_exactly_m_parts_refuted` (Split covers n exactly): C05, the doc comment's stronger reading ("split into m parts") is false: 5 in 4 parts gives (2,1), i.e. three pieces.
* `C11_arity2_refuted` (n-ary heap surfaces a minimum): : a history of pushes and pops after which `Peek` is not a minimum.
* `C11_arity3_refuted` (n-ary heap surfaces a minimum): : with a `Remove`.
* `C11_arity_ge5_refuted` (n-ary heap surfaces a minimum): : push 0,2,2,2,2,1,3 and pop once; `Peek` then shows 2 while 1 is stored.
* `C20_size_zero_refuted` (Unbounded ring is an unbounded FIFO queue): `New(0)` followed by `MPopCopy` panics with a division by zero; a FIFO queue would leave the destination alone.
* `C22_unbounded_wrap_refuted` (Rings survive counter wrap-around): An unbounded ring created with a size (at least 2) that does not divide 2^64 and used until its counters wrap hands out a younger element first: after `wrapPrefix` the oldest element is `true`, yet `Pop` returns `false`.
* `C23_push_pop_refuted` (Rings are safe for one producer and one consumer): The producer bumps the write counter before it stores the element; a consumer that pops in between obtains a value that was never produced.
* `C23_pop_overwritten_refuted` (Rings are safe for one producer and one consumer): The consumer bumps the read counter before it loads the element; a producer that pushes in between overwrites it: the first element is lost and the second obtained in its place.
* `C23_mpush_panic_refuted` (Rings are safe for one producer and one consumer): `MPush` reads the room twice; if the consumer makes room in between, `elems[:size]` is out of range and the producer panics (or publishes the hidden tail of the caller's slice, if it has spare capacity).
* `C24_round_huge_refuted` (Ring constructors honour the requested size): Every size above 2^63 is rounded up to 0: the constructor neither panics nor honours the size, it returns a ring of capacity 0.
* `C28_stale_handle_refuted` (Clear empties the list for good): `Clear` does not reset `e.list`: removing the old first element of a cleared list gives it length −1, and `Front` then returns the sentinel or an old element; removing it after a new `PushBack` makes `Len` 0 although the list has an element — `Front` returns nil, and the element is lost.
* `C31_nan_refuted` (Set is a finite set): : with a key unequal to itself (NaN) `Contains` is false after `Add`, `Len` grows with every `Add`, and nothing can be removed.
* `C33_limit_refuted` (Fixed window: any interval no longer than the window sees at most 2*limit accepts): : for every positive limit and window there is a history with `2 * limit` accepted calls within one nanosecond.
* `C36_overflow_refuted` (Leaky bucket level stays in range and rejects only when full): : with velocity 2^62 the multiplication overflows and the first call after three seconds is rejected although nothing was ever accepted.
* `C37_negative_capacity_refuted` (Token bucket bounds burst and rate): : with capacity -1 there is no limit at all: for every rate, arbitrarily many calls (up to 2^63) at the first second are all accepted.
* `C38_overflow_refuted` (Token bucket never over-issues): : with rate 2^62 the issued tokens overflow after two seconds, the number of tokens becomes negative and then larger than any capacity: arbitrarily many calls (up to 2^63) are accepted at once.
* `C39_full_length_refuted` (Sliding window bound): For every positive limit and every positive window there is a history in which `2 * limit` calls are accepted within an interval of length `window - smallWindow + 1`, which is less than the window if the small window is longer than 1 ns.
* `C39_zero_window_refuted` (Sliding window bound): : the constructor accepts the window 0, and such a limiter with a positive limit accepts every call.
* `C44_independent_refuted` (Limiters built from the same strategy value are independent): One strategy, 2 calls per 10 ns, used first for a limiter with small windows of 1 ns: its third call within the window is rejected. Building another limiter with small windows of 10 ns from the same strategy object changes the first one: the third call is accepted.
* `C47_no_seeds_refuted` (Bloom Clear): : a filter without hash functions contains everything.
* `C49_zero_refuted` (Bloom never indexes out of range): `New(0, p)` gives a filter whose operations panic (if it has a seed).
* `C49_overflow_refuted` (Bloom never indexes out of range): A bit count above `2^64 - 64` is rounded to zero.
* `C50_zero_value_refuted` (Hash.Sum64 is history independent): The zero `Hash{}` panics.
* `C53_several_refuted` (DelayQueue wakes its consumer (no lost wakeup)): Both sleep on an empty queue; a `Push` wakes the first, which sleeps again, is woken by its timer (clearing the flag that also stood for the second), takes the entry and goes away. Then the second sleeps without a timer although there is an expired entry, and whatever is pushed or popped later, it is never woken.
* `C54_cancel_refuted` (DelayQueue Push never blocks forever): A `Take` on an empty queue is cancelled; then a `Push` finds `sleeping = 1`, sends on `wakeup` and blocks forever, holding the mutex, so that every other operation blocks forever too: whatever the other goroutines do, it stays that way.
* `C57_refuted` (Timing wheel never fires early by a tick or more): : a task can be started more than a tick early. A bucket taken from the queue that is behind the wheel's time gets a new timer, a whole turn later, and a new expiration before `Run` reads it.
* `C60_refuted` (AfterFunc always runs its task): : `AfterFunc` ignores the result of `add`. A task whose expiration is less than a tick after the wheel's time is dropped (here the delay is 5 ms, the tick 10 ms), and never started.
* `C60_zero_refuted` (AfterFunc always runs its task): A delay of zero is dropped by every wheel, in every state whose time is the clock's.
* `C61_refuted` (Cancelling Run's context stops it cleanly): : after the cancellation the queue's goroutine may close the channel before `Run` looks at its context; `Run` then may receive a nil bucket and panics.
* `C61_leak_refuted` (Cancelling Run's context stops it cleanly): : the queue's goroutine may outlive `Run` for ever, holding a bucket nobody will receive.
* `C62_size_one_refuted` (Overflow wheels terminate): : a timer that is not due at once makes `add` create overflow wheels for ever.
* `C62_size_one_new_refuted` (Overflow wheels terminate): So the first `AfterFunc` with a delay of a tick or more never returns on a new wheel of one slot.
* `C63_refuted` (flush never re-adds a timer into the bucket being flushed (no self-deadlock)): : as in `C57_refuted`, but the new timer arrives after `advance`. `Run`, holding the bucket's mutex, calls `add` for a timer that goes into this very bucket, and blocks for ever.
* `C64_empty_refuted` (SplitInsert inserts every record once, in order): If the first record has no fields, the call succeeds without having sent anything, whatever the other records are.
* `C65_mixed_refuted` (SplitInsert respects the placeholder limit): Without that assumption the limit is not kept: the columns of a later batch are those of its own first record.
* `C66_refuted` (SplitInsert terminates): With more than 65000 fields it does not return: it keeps sending empty batches, which succeed.
* `C66_refuted_example` (SplitInsert terminates): There is such a record.
* `C69_order_refuted` (BatchUpdate sets exactly the requested fields): Otherwise it sends one. So with different sets of fields the outcome depends on the order of iteration: here it either fails, or silently drops the field `b` of the second id.
* `C69_no_fields_refuted` (BatchUpdate sets exactly the requested fields): If the item looked at first has no fields, a statement without assignments is sent.
* `C72_invalid_refuted` (StringToInt on bad input): Twenty nines followed by a letter: not a numeral, but the result is the greatest number, not 0.
* `C74_refuted` (AesDecrypt reports bad ciphertext as an error): One byte of ciphertext panics, with every cipher and good key.
* `C74_block_refuted` (AesDecrypt reports bad ciphertext as an error): Whole blocks may panic as well: for every cipher and good key there is a block that does.
* `C74_padding_refuted` (AesDecrypt reports bad ciphertext as an error): Bad padding that is not too long is not noticed: sixteen zero bytes, which no plaintext is padded to, come back as they are.
* `C76_refuted` (AesEncrypt does not modify the caller's memory): With spare capacity for the padding, the bytes behind the slice are overwritten.
* `C78_idempotent_refuted` (MakeFile is idempotent and detects missing chunks): A second call changes the file.
* `C78_missing_refuted` (MakeFile is idempotent and detects missing chunks): Chunks 0 and 2 of three are there: `MakeFile` reports success, and chunk 2 is lost as well.
* `C79_empty_refuted` (RemoveChunk only removes its own upload): With an empty name, all uploads are removed, and success is reported.
* `C79_dotdot_refuted` (RemoveChunk only removes its own upload): With the name `..`, everything below the working directory is removed (if there was any upload).
* `C80_bytes_refuted` (HideStar hides): The test for three characters counts bytes: one Chinese character passes it, and then the outcome depends on the capacity the runtime chose: a panic, or text with a NUL character.
* `C81_short_refuted` (Mask functions hide the masked range): Short input, ASCII or not, is returned as it is: nothing is hidden.
* `C81_bankcard_refuted` (Mask functions hide the masked range): Bank cards: with 12 or more characters to mask, no card of more than 16 is masked.
* `C81_non_ascii_refuted` (Mask functions hide the masked range): Non-ASCII input: every byte but the first of a character becomes NUL.
* `C82_short_refuted` (MaskCustomerName hides the name): Names of two to four characters that are more than four bytes are shown entirely: every rune of the name is in the result.
* `C83_refuted` (UpperFirst capitalises): So the first letter is in upper case only if it was so before.
* `C86_refuted` (Unzip stays inside the destination): The archive with one file `../evil`: `Unzip` succeeds and has written outside the destination.
* `C88_copied_refuted` (CopyFile copies): A longer target keeps its tail, and success is reported.
* `C89_root_refuted` (ScanDir lists every file once): The root directory cannot be scanned: the path becomes empty.
* `C92_nil_refuted` (Map is a linearizable map): With `nil` values, two `TestAndSet` calls on an absent key both get `nil`.
* `C93_nil_refuted` (Option switches): On a `nil` map, `Set` to false is lost.
* `C94_format_byte_refuted` (FormatByte formats its argument): `FormatByte` gives the same for all sizes: what `%.2f` makes of 32, followed by ` B`.
* `C95_row_refuted` (WriteCsv appends the given row): The row written does not depend on the argument, and success is reported even if nothing can be written.
* `C96_negative_refuted` (Round rounds to n decimals): Negative integers are not even kept: `Round(-3, 0)` is `-2`. For every `k ≥ 1`, `Round(-k, 0) = -k + 1`.
* `C97_last_refuted` (File-name helpers): "aaa" with "aa": the last occurrence is at the end, the result is "a".
* `C97_image_refuted` (File-name helpers): A file called `png`, without extension, is taken for an image.
* `C97_unicode_refuted` (File-name helpers): The extension `gİf` with U+0130, whose lower case is `i`, is taken for `gif`.
* `C98_zero_list_refuted` (The zero List is an empty list ready to use): `List`'s comment says "The zero value for List is an empty list ready to use"; it can be read, but every insertion into it panics.
* `C99_refuted` (The timing wheel's queue sleeps until the next bucket is due): : `take` should sleep until the first bucket has expired. The duration has the wrong sign: it is never positive, so the timer fires at once, and `take` polls.
* `C100_refuted` (Insert statements are unambiguous): A name with a back quote is not escaped: one field passes for two, and the values no longer match the columns.
* `C101_refuted` (IsSameSiteURLPath as seen by a browser): A tab after the first slash: accepted, though a browser goes to the host `evil`.
* `C102_refuted` (BuildUrl does not invent a host): If the trimmed prefix is empty, the result of two plain parameters is a network-path reference: `//a/1` names host `a`.
* `C103_upload_escapes_refuted` (Uploads stay in their directory): The file name may lead out of the directory: the upload overwrites a chunk of another upload, or any other file whose name ends in `_` and a number.
* `C103_make_escapes_refuted` (Uploads stay in their directory): Likewise `MakeFile` writes outside the directory of finished files.
* `C105_empty_refuted` (FileMove moves): With an empty target, success is reported and nothing is moved.
* `C106_file_exist_refuted` (FileExist and FileIsExisted tell the truth): `FileExist` (and `FileIsExisted`) say that `f/x` exists if `f` is a file.
* `C107_is_file_refuted` (IsDir and IsFile): `IsFile` is true wherever there is nothing.
* `C108_utf8_refuted` (JsonStringToMap inverts MapIntToJsonString): for keys that are not UTF-8: two entries come back as one.
* `C109_overflow_refuted` (JsonStringToMap stores the numbers in the text): for every number out of range: it is read as 0, and there is no error.
* `C109_other_refuted` (JsonStringToMap stores the numbers in the text): The same for values of other types, and a syntax error (or no object) gives the nil map.
* `C111_ragged_refuted` (ReadCsv sees what WriteCsv appended): If the rows had another number of values, nothing can be read any more.
* `C111_glued_refuted` (ReadCsv sees what WriteCsv appended): The row written is glued to a last line that has no newline.
* `C113_collision_refuted` (ZipFiles and Unzip restore the files): The replacement is done everywhere and not only at the beginning, so different files get the same name: both calls succeed, and one of the two files is lost.
* `C113_close_refuted` (ZipFiles and Unzip restore the files): An error of closing the archive, which writes its directory, is not reported.
* `C115_read_refuted` (MakeFile and failing reads and writes): Whatever the chunks are, if reading them fails at once success is reported for an empty file.
* `C115_write_refuted` (MakeFile and failing reads and writes): A failing write removes a file of that name that was complete before.
* `C117_type_refuted` (ImageFileToBase64 is decodable): Every file is called a PNG image, also one that is none.
* `C118_empty_refuted` (DeLFile removes the path and nothing else): Success is reported, and nothing is removed.
* `C118_failure_refuted` (DeLFile removes the path and nothing else): For a path that ends in `/..` an error is reported although everything below that directory is gone.
* `C119_carry_refuted` (FileSize writes the size): With the right logarithm, one byte less than a megabyte is written as 1024 kilobytes.
* `C119_negative_refuted` (FileSize writes the size): A size of -1 is written as 16 exabytes.
* `C120_order_refuted` (GetTimeDir sorts by date): The directory of the first day of the year 10000 comes before that of the day before.
* `C121_mp4_refuted` (Content predicates): An MP4 file whose first box has 256 bytes is an image, and no video.
* `C121_text_refuted` (Content predicates): A text that begins with `BM` is an image; one with `LP` as its characters 35 and 36 is no text either; and after a tag of HTML anything is a text.
* `C122_foreign_refuted` (JSON of arbitrary maps): for every other value: one such part, however deep, and the text is empty. The error is dropped; the empty text is no JSON.
* `C122_type_refuted` (JSON of arbitrary maps): An integer and a float may have the same text.
* `C123_backslash_refuted` (GetCurrentDir): A directory with a backslash in its name becomes two directories.
* `C123_path_refuted` (GetCurrentDir): A program that was found through `PATH` is called by its name only: the result is the working directory, wherever the program lies.
* `C123_noargs_refuted` (GetCurrentDir): Without `os.Args` it panics.
* `C124_unnoticed_refuted` (ShellExec): A failing command that is not the last one is not noticed, and what it wrote to stderr is lost.
* `C124_silent_refuted` (ShellExec): A command that fails without a word, and a missing shell, give an error with an empty text; what was written to stdout before is lost.
* `C125_container_refuted` (Reload): A process whose parent lies outside its container has the parent 0: it signals its own process group, so also itself, and reports success.
* `C126_hard_refuted` (DelByTableNameAndId): Although the models have a `DeletedAt`, the row is not marked but removed.
* `C127_missing_refuted` (Updates by id and by conditions): An id that is not there gives no error, and no change.
* `C127_deleted_refuted` (Updates by id and by conditions): Rows that are marked as deleted are updated too, and `updated_at` is not.
* `C128_again_refuted` (SoftDelByTableNameAndId): Deleting again moves the time of the deletion, without an error.
* `C128_missing_refuted` (SoftDelByTableNameAndId): A row that is not there gives no error.
* `C130_stuck_refuted` (Channel of the delay queue): If the channel is full and the reader has gone, the goroutine stays at its send forever, whatever happens, and never closes the channel.
* `C130_lost_refuted` (Channel of the delay queue): Such a state is reached: the context is cancelled, and the entry is neither in the queue nor with the reader, and never will be.
* `C132_nil_refuted` (Records are dumped with all their fields): A nil record has no fields and is no error; then `SplitInsertTableRecords` returns success and inserts none of the records.
* `C132_string_refuted` (Records are dumped with all their fields): A byte that is no UTF-8 becomes U+FFFD.
* `C133_half_refuted` (Round on float64): 0.49999999999999994 is rounded to 1.
* `C133_whole_refuted` (Round on float64): 2^52+1 becomes 2^52+2.
* `C133_overflow_refuted` (Round on float64): If `f·10^n` is too large for a `float64`, the result is infinite.
* `C133_range_refuted` (Round on float64): Above 308 and below -323 the result is no number.
* `C133_negative_refuted` (Round on float64): -1 becomes 0.
* `C133_low_refuted` (Round on float64): For `n` from -323 to -309 the half unit overflows: every number, zero too, is rounded to infinity, and minus infinity to NaN. Below -323 and above 308 the result is NaN (`C133_range_refuted`).
* `C133_negative_whole_refuted` (Round on float64): No whole number from -2^52 to -1 is kept.
* `C133_negative_idempotent_refuted` (Round on float64): Rounding -k again and again goes up by one each time, until zero.
* `C134_above_refuted` (Log2 is the whole part of the logarithm): 2^49-1 gives 49, not 48.
* `C134_convert_refuted` (Log2 is the whole part of the logarithm): From 2^54 on the number below a power of two already becomes the power when it is converted: `Log2(math.MaxInt64)` is 63.
* `C134_undefined_refuted` (Log2 is the whole part of the logarithm): For zero and negative numbers nothing is defined.
* `C135_rate_refuted` (Sizes of a bloom filter give the wanted rate): For the rate `2^(-3/2)` (35.4 percent) and any capacity from 10000 the estimated rate is above it.
* `C136_overwrites_refuted` (A heap on the caller's array): A heap made of a part of a slice writes outside of that part.
* `C136_update_refuted` (A heap on the caller's array): Once `Push` has moved the heap, assignments of the caller do not reach it.
* `C137_foreign_refuted` (Several reaps): `Remove` of an entry of another heap removes an element that was not named, and `SetValue` leaves the other heap out of order: it gives 5 although it has 0.
* `C138_leak_refuted` (A meap with keys that are not equal to themselves): The map is not as large as the heap: each such key that was ever pushed leaves an entry behind for good, also when the heap is empty again.
* `C138_lookup_refuted` (A meap with keys that are not equal to themselves): For a key that is not equal to itself: what was pushed is not found, a second `Push` does not replace the first, `Remove` does not remove, and the only way out is `Pop`. Here keys are numbers, and 0 is not equal to itself.
* `C139_symmetry_refuted` (Max, Min and Abs of floating point numbers): `Max(NaN, 1)` is 1 and `Max(1, NaN)` is NaN; for zeros the sign of the result is that of the second argument.
* `C140_deadlock_refuted` (The timing wheel when goroutines are interrupted inside add): `Run` can come to wait forever for a mutex that it holds itself, though it processes the buckets in order: after a goroutine was interrupted between entering its timer into a bucket and setting the bucket's expiration.
* `C140_early_refuted` (The timing wheel when goroutines are interrupted inside add): In the same way a timer can be started long before its time (here 18 ticks early), in order.
* `C141_bad_refuted` (Callbacks of the ranges that use the map): A goroutine whose callback of `RLockRange` writes to the map, or whose callback of `LockRange` uses it at all, never finishes, whatever the others do.
* `C141_nested_read_refuted` (Callbacks of the ranges that use the map): A callback of `RLockRange` that reads the map, and one other goroutine that writes: the writer announces itself between the two read locks. Nobody can go on, and neither has finished.
* `C142_get_unhashable_refuted` (Map with odd keys and with callbacks that use the Unsafe methods): `Get` of a key that cannot be hashed returns `nil` on a fresh map, and panics after any call of `Set`, `TestAndSet` or `Del` – even one that itself panicked, so that both maps are empty.
* `C142_all_win_refuted` (Map with odd keys and with callbacks that use the Unsafe methods): With a key that is not equal to itself all win.
* `C142_update_refuted` (Map with odd keys and with callbacks that use the Unsafe methods): With a key that is not equal to itself every call adds a pair.
* `C143_back_refuted` (GetTimeDir at a moment): In Newfoundland summer time ended at 00:01 (until 2011): on 2010-11-07 at 00:01 the clock went back to 23:01 of November 6th, and with it the directory.
* `C144_lost_refuted` (Bloom filter used by several goroutines): A filter with one seed, and two hashes whose bits are in the same word: both goroutines read the word, both write it, and the first bit is lost. Both `Add` calls have returned, yet `Contains` says no, then and for ever.
* `C145_equal_refuted` (Hash used by several goroutines): Two goroutines hash the same bytes: the first gets the hash of the bytes written twice. A third call, when they are done, gets the right one; and a fourth, whose buffer another goroutine resets, gets the hash of nothing.
* `C146_mark_refuted` (Values arrive at their places): A question mark in a column name takes the values of the first row; the rows get those of the row before, and a place holder without a value is left. In an UPDATE everything is shifted.
* `C146_array_refuted` (Values arrive at their places): A field that is an array (or in Go any slice but `[]byte`) is written as several values in parentheses.
* `C146_limit_refuted` (Values arrive at their places): One record with one field that is an array of any length `n + 1`: the statement has `n + 1` place holders.
* `C147_id_refuted` (Batch statements in a database): If the id is among the fields, the outcome depends on the order in which Go walks through the map: if the id comes first, the other columns become NULL, since they look for the old id.
* `C147_half_refuted` (Batch statements in a database): 502 ids, of which the last two do not agree in their fields: the call returns the error, but the first batch has been made.
* `C149_key_refuted` (Ciphertexts chosen by others): "The key cannot be found out by having ciphertexts decrypted" fails: from any ciphertext of 16 bytes or more of data, one decryption of another ciphertext gives away the first 16 bytes of the key, without any error. A key of 16 bytes is then known. The attacker needs to know neither the data nor the cipher.
* `C149_tamper_refuted` (Ciphertexts chosen by others): "Altered ciphertexts are noticed" fails: who changes the first block of a ciphertext changes the second block of the data by the same bits, as they like; the data after it stay, only the first block is scrambled, and there is no error.
* `C150_collision_refuted` (The MD5 helpers with MD5): "A content that passes `CheckMd5` is the content of which the digest was taken" fails, not for a contrived hash function but for MD5: for every text there are two different contents that end in it, and `CheckMd5` accepts the one for the other.
* `C151_overtake_refuted` (The bounded rings with store buffers): Where stores to different places may overtake each other, the consumer gets an element that nobody has pushed: the counter arrives before the cell.
* `C152_text_refuted` (Where paths lead): `l/../f` names the file `f` of the working directory by its text, but leads to another one.
* `C152_reach_refuted` (Where paths lead): The file `f` is there, but neither `x/../f`, since there is no `x`, nor `f/` leads to it.
* `C153_dangling_refuted` (Looking at a path with links): For a dangling link `FileExist` says yes and `FileIsExisted` says no.
* `C153_loop_refuted` (Looking at a path with links): For two links that point at each other `FileExist`, `FileIsExisted` and `IsFile` say yes, though the path leads nowhere.
* `C154_dangling_refuted` (Making directories with links): `PathExists` says there is nothing, without an error, but `CreateDir` fails: there is a dangling link.
* `C155_text_refuted` (Removing with links): `l/../f` removes another file.
* `C155_missing_refuted` (Removing with links): A path that goes through something missing is reported as removed, though its text names a file that is there.
* `C156_dangling_refuted` (Copying with links): If the target is a link, what it leads to is overwritten; if that does not exist, it is made, though `FileIsExisted` said that there is nothing at the target.
* `C156_empty_refuted` (Copying with links): Copying a directory makes an empty file.
* `C157_refuted` (Unpacking with links): If there is a link in the target directory, an entry whose name has no `..` (and that `IsMaliciousPath` lets pass) overwrites a file outside.
* `C157_dest_refuted` (Unpacking with links): The target is cleaned as text first, so with a link in it the files land in another directory than the one to which it leads.
* `C158_text_refuted` (Moving with links): `FileMove` makes the paths absolute as text, while the other helpers walk them: `l/../f` reads as one file, but another one is moved.
* `C158_empty_refuted` (Moving with links): Without a target nothing is moved, and no error reported.
* `C158_link_refuted` (Moving with links): A link whose target is relative leads elsewhere from another directory.
* `C158_target_refuted` (Moving with links): A link at the target is replaced, so what it led to keeps its content.
* `C159_read_refuted` (Scanning with links): Dangling links, links that point at each other and links to directories are listed as files.
* `C159_behind_refuted` (Scanning with links): A directory behind a link is not entered.
* `C160_bits_refuted` (Sizes of a bloom filter in float64): The filter has at least the bits that are needed for the wanted rate: it can have fewer, as the rounding of the product can reach a whole multiple of 64 from above. With a correctly rounded logarithm this happens for 286746937 elements and the rate one half.
* `C162_panic_refuted` (64-bit times of the timing wheel): Out of range `add` can panic: with 2^21 buckets and a tick of a millisecond, `AfterFunc` with the greatest `time.Duration` (292 years) divides by zero, since the interval of the third wheel is 2^63 and that of the fourth one 0.
* `C162_stuck_refuted` (64-bit times of the timing wheel): And one timer can stop the wheel for good: with 20 buckets and a tick of a millisecond, a timer scheduled for the time 2^62 (in 146 million years) gets into a bucket that has expired already, and there `Run` waits forever for a mutex that it holds itself.
* `C165_uploads_refuted` (Files opened by the helpers are closed again, and few are open at a time): Each upload that finds the disk full keeps a descriptor: after as many of them as there were free descriptors nothing can be opened any more, and then every upload fails, whether or not there is space.
* `C165_makeFile_refuted` (Files opened by the helpers are closed again, and few are open at a time): With one free descriptor, the last, `MakeFile` makes an empty file and reports success: that the chunks cannot be opened is not noticed.
* `C165_unzip_refuted` (Files opened by the helpers are closed again, and few are open at a time): Whatever the limit, there is an archive, without any fault, that `Unzip` unpacks if there is no limit and does not unpack with it.
* `C166_popped_refuted` (What the memory of a ring holds: an element that was popped is released): "An element that was popped is no longer referred to by the ring" is false for every size and element: `Push(e)` and `Pop()` leave `e` in the first cell.
* `C167_cleared_refuted` (A linked list keeps exactly its elements alive): A client who keeps one element of a list that was cleared keeps all elements it was cleared of, and the list with everything pushed since.
* `C168_panic_refuted` (The queue of the timing wheel: push never blocks for ever and no wakeup is lost): The goroutine of `channel` sees the cancellation and closes the channel before `Run` looks; of the two ready cases of its `select`, `Run` takes the receive, and uses the nil bucket.
* `C168_after_cancel_refuted` (The queue of the timing wheel: push never blocks for ever and no wakeup is lost): A wheel with nothing to do is stopped by its context; then `AfterFunc` is called: it blocks for ever, holding the mutex of the queue.
* `C168_run_refuted` (The queue of the timing wheel: push never blocks for ever and no wakeup is lost): A timer for time 25 is in the second wheel; its bucket, for time 20, is due at 21. While `Run` moves the timer down to the first wheel, the context is cancelled and the sleeping goroutine of `channel` sees it first. `Run` pushes the bucket of the first wheel, finds the flag set, and sends for ever.
* `C169_rate_refuted` (The true rate of false positives of a bloom filter): For every rate `2^-j` and every power of two from 1024 there is a capacity at which `New` gives that many bits; after so many uniform hashes the probability of a false positive is at least `3/(8j)`, for all seeds. (For one in a million, `j = 20`: 1.9 percent.)
* `C170_fresh_refuted` (RandStr returns fresh strings, and any string of the kind): Calls at times that agree modulo 2^31-1 nanoseconds, in particular at the same time, return the same string; that is every 2.1 seconds.
* `C170_every_refuted` (RandStr returns fresh strings, and any string of the kind): From ten digits or seven letters on there is a string of the wanted size and kind that is returned at no time, whatever the table of the generator.
* `C171_forgotten_refuted` (The timing wheel survives the clock being set): From every state: if the clock is set back to `c`, the task of `AfterFunc(delay)` is forgotten whenever `c + delay` is less than a tick after the time of the wheel. It is in no bucket, and it is never started.
* `C171_early_refuted` (The timing wheel survives the clock being set): In the same state a task of `ScheduleFunc` that is due at `e` starts at once, though the clock shows `c` — however much earlier that is.
* `C172_exceeded_refuted` (The sliding window when the clock is set): The bound is reached: for every limit of at least 2, every window and every number of times `k` there is a history in which the clock is set back `k` times and `limit + k (limit - 1)` calls are accepted in `[0, window)`.
* `C172_outage_refuted` (The sliding window when the clock is set): If `limit` calls were accepted at `T` and the clock is set back, every call is rejected until the clock shows the end of the window of `T` again: as long as it was set back, and longer.
* `C173_exceeded_refuted` (The sliding log when the clock is set): For every limit of at least 2, every window and every number of times `k` there is a limiter with this rule and a history in which the clock is set back `k` times and `limit + k (limit - 1)` calls are accepted in `[0, window)`.
* `C174_stop_refuted` (ScheduleFunc follows its scheduler): A schedule that goes on is not always ended by `Stop`: while the task is on its way to ask for the next time the timer is in no bucket, `Stop` returns false without effect (`exec` has no such action), and the task is started again later.
* `C174_spin_refuted` (ScheduleFunc follows its scheduler): `Next` is later than the time it is given, yet the task is started without end for the same millisecond: on any wheel, in the millisecond in which `ScheduleFunc` was called, any number of times.
* `C175_mixed_refuted` (Chunks uploaded by several goroutines): Two goroutines upload different contents of one chunk, each with a single write, and both report success: the chunk is neither.
* `C175_zeros_refuted` (Chunks uploaded by several goroutines): The same content is uploaded twice, and one upload reports success; the other one fails, and the chunk keeps bytes that nobody uploaded.
* `C175_make_refuted` (Chunks uploaded by several goroutines): The only chunk was uploaded with success; while the same upload is repeated, `MakeFile` reports success, and the file is empty.
* `C176_lost_refuted` (WriteCsv by several goroutines): Of `n` calls that all report success any number of rows from one on may be in the file, the others are lost: for every file and all `1 ≤ m ≤ n` the goroutines can take turns such that `m` lines are added.
* `C177_slow_refuted` (Several channels on one delay queue): Two channels on one queue, no context cancelled. The reader of the first has gone (or is slow) while its goroutine has an entry in its hands; the second goroutine sleeps and its reader waits. Whatever is pushed and falls due from now on, the second reader gets nothing, ever: the flag that would wake the sleeper was taken back when the first was woken.
* `C178_lost_refuted` (Run stopped and called again): The natural statement is false: a timer that is due when `Run` is stopped and called again is never started, however long the new `Run` runs and however often it is called again, and whatever timers others set, as long as none with another expiration comes into its bucket.
* `C178_joins_refuted` (Run stopped and called again): A timer that another caller sets after the new call joins the lost ones if its expiration is in the span of the lost bucket (wheel with a tick of 4: the bucket is that of 4 to 7, the first timer is for time 5 and the second one, set at time 5 after `Run` was called again, for time 7).
* `C178_late_refuted` (Run stopped and called again): A timer with another expiration that comes into the lost bucket brings it back: the lost timer, for time 2, is started with it, after time 6.
* `C179_popped_refuted` (What the memory of a heap holds): The natural statement is false: an element that `Pop` has returned stays in the array of the heap, whatever is called later, for as long as the heap does not get longer than it was after that `Pop`; if nothing is pushed any more, for as long as the heap lives.
* `C180_mixed_refuted` (Several calls of MakeFile with one file name): Two calls for one upload both succeed, and the file has its chunks mixed.
* `C180_gone_refuted` (Several calls of MakeFile with one file name): A call succeeds; another one, which fails, then removes the file.
* `C180_unlinked_refuted` (Several calls of MakeFile with one file name): The file is gone before call 1 writes its first byte; it still writes all and succeeds.
* `C181_mixed_refuted` (Several calls of CopyFile at a time): Two calls with different sources both report that all was copied; the file is a mixture.
* `C181_circle_refuted` (Several calls of CopyFile at a time): Copied onto each other, both files can end up as mixtures; no content is left whole.
* `C182_lost_refuted` (Several calls of FileMove at a time): Two files are moved to one path: both calls succeed, one file is gone.
* `C182_exchange_refuted` (Several calls of FileMove at a time): Both succeed, and one file is back where it was, the other one gone.
* `C183_missing_refuted` (MakeFile while chunks are uploaded and removed): `RemoveChunk` runs while the file is made: the second chunk is missing, and `MakeFile` reports success.
* `C183_half_refuted` (MakeFile while chunks are uploaded and removed): The last chunk is still being uploaded: the file has a part of it, and `MakeFile` reports success.
* `C183_again_refuted` (MakeFile while chunks are uploaded and removed): All chunks are complete; one is uploaded again, with the same content, which truncates it first. The file that is made lacks it, and `MakeFile` reports success; at the end all chunks are complete.
* `C183_read_refuted` (MakeFile while chunks are uploaded and removed): The chunks are complete and left alone; the first read of a chunk returns a byte, the second one fails.
* `C184_early_refuted` (Several calls of Run at a time): Both calls take and process their buckets in order. A timer for time 6 comes to the bucket that call 1 has in its channel, and is started with it, at time 4.
* `C184_deadlock_refuted` (Several calls of Run at a time): The timer comes to the bucket after call 1 has moved the wheels on for it. The wheels already stand at 3, so the timer goes back to the bucket it comes from, whose mutex the call has itself: `add` waits for ever.
* `C185_mixed_refuted` (RandStr called by several goroutines): For any strings of any times there is an execution with calls of `RandStr` only in which a call, whatever time it has read itself, returns all these strings one after the other.
* `C185_repeat_refuted` (RandStr called by several goroutines): If others seed the source with the time that the call has read, it returns one word again and again.
* `C186_relative_refuted` (Log2 of a float64): The number next to 1 has a logarithm that is wrong by more than three percent, whatever `math.Log` is, since its result for the fraction, near -1, is a `float64`.
* `C187_reap_removed_refuted` (What the arrays of Reap and Meap keep alive): The natural statement is false: a handle that `Remove` has taken out of the heap stays in the array, with its value, whatever is called later, for as long as the heap does not get longer than it was then.
* `C187_reap_popped_refuted` (What the arrays of Reap and Meap keep alive): The same for `Pop`: what it returned is still referred to.
* `C187_meap_removed_refuted` (What the arrays of Reap and Meap keep alive): The natural statement is false: the entry of a key that `Remove` has deleted stays in the array with its value, whatever is called later, until something is pushed.
* `C192_cat_refuted` (ShellExec with commands that read stdin or span several lines): A command that copies stdin to stdout (`cat`) gets all that is behind it, which is not executed; its output ends with the `exit` that `ShellExec` has added. For every text behind it and every shell with such a command.
* `C193_nan_refuted` (Sets of floating point numbers): After an `Add` of NaN the set is never empty again, whatever is removed.
* `C194_nan_refuted` (Heaps of floating point numbers): A NaN hides smaller numbers: of `b`, NaN and `a` the heap returns `b` first, also if `a < b`. For all numbers and every NaN.
* `C195_rate_refuted` (The token bucket grants its rate): For every rate and every bucket that holds the tokens of one second: of a caller who comes every two seconds less a nanosecond, `n` times, and asks for what the rate allows in two seconds, half of the calls are rejected. A call is then rejected although only `n * r` calls were accepted in nearly `2 * n` seconds: from the second visit on less than the rate, even without the last second.

## Axioms of each theorem

As printed by `#print axioms`.

**none** (9):
`C28_stale_handle_refuted`, `C31_nan_refuted`, `C50_zero_value_refuted`, `C61_can_return`, `C61_refuted`, `C92_nil_refuted`, `C93_nil_refuted`, `C141_exclusive`, `C166_reset`

**propext** (64):
`C05_exactly_m_parts_refuted`, `C06_max`, `C06_min`, `C20_size_zero_refuted`, `C23_push_pop_refuted`, `C23_pop_overwritten_refuted`, `C23_mpush_panic_refuted`, `C36_overflow_refuted`, `C50_history_independent`, `C53_several_refuted`, `C61_not_before`, `C75_agree`, `C75_check`, `C75_extra`, `C83_unchanged`, `C83_partial`, `C86_targets`, `C88_copy_exact`, `C88_source_kept`, `C91_negative`, `C92_readers`, `C93_set_partial`, `C107_is_dir`, `C107_is_file_partial`, `C107_is_file_refuted`, `C112_missing`, `C113_complete`, `C113_directory`, `C123_noargs_refuted`, `C127_where_empty`, `C129_insert`, `C130_ends`, `C130_closed_stays`, `C130_closes_only`, `C130_open`, `C136_update_refuted`, `C137_foreign_refuted`, `C138_ordinary`, `C138_lookup_refuted`, `C141_methods`, `C142_len`, `C142_nan`, `C142_unhashable`, `C142_unhashable_text`, `C145_equal_refuted`, `C151_overtake_refuted`, `C153_pathexists`, `C154_createdir_again`, `C164_same`, `C178_clean`, `C180_mixed_refuted`, `C180_gone_refuted`, `C180_unlinked_refuted`, `C181_mixed_refuted`, `C181_circle_refuted`, `C182_once`, `C182_kept`, `C182_there`, `C182_lost_refuted`, `C182_exchange_refuted`, `C183_missing_refuted`, `C183_half_refuted`, `C183_again_refuted`, `C183_read_refuted`

**Quot.sound, propext** (162):
`C04_findLastBitSet`, `C06_abs`, `C06_abs_intMin`, `C08_len`, `C11_arity2_refuted`, `C11_arity3_refuted`, `C12_newN_panics_iff`, `C22_unbounded_wrap_refuted`, `C23_values`, `C24_fix_new`, `C24_unbounded_new`, `C31_contains`, `C31_len`, `C38_first_second`, `C44_independent_refuted`, `C45_fixed`, `C45_leaky`, `C45_token`, `C47_no_seeds_refuted`, `C48_power_of_two`, `C49_zero_refuted`, `C49_overflow_refuted`, `C54_receiver`, `C54_gets_through`, `C55_empty`, `C57_refuted`, `C59_limbo`, `C62_size_zero`, `C62_new_panics`, `C73_roundtrip`, `C73_injective`, `C73_bad_key`, `C74_refuted`, `C74_block_refuted`, `C74_padding_refuted`, `C74_partial`, `C76_partial`, `C81_total`, `C84_panics`, `C85_clean`, `C85_join`, `C86_elements_partial`, `C87_iff`, `C88_copied_partial`, `C91_every_digit_string`, `C92_writers`, `C92_one_winner_partial`, `C97_suffix`, `C97_last_partial`, `C98_zero_list_refuted`, `C104_path_exists`, `C105_moved_partial`, `C105_failure_keeps`, `C105_empty_refuted`, `C106_file_exist_exact`, `C106_file_exist_partial`, `C109_range`, `C112_ragged`, `C112_rectangular`, `C113_pack`, `C113_cut`, `C113_roundtrip_partial`, `C113_name`, `C113_close_refuted`, `C114_written`, `C114_nothing_else`, `C114_success`, `C114_unreadable`, `C118_deleted_partial`, `C118_empty_refuted`, `C123_text`, `C123_dir_partial`, `C123_path_refuted`, `C125_container_refuted`, `C130_fifo`, `C130_closed`, `C130_ahead`, `C136_overwrites_refuted`, `C140_covers`, `C140_early_refuted`, `C141_nested_read_refuted`, `C142_set`, `C142_testAndSet`, `C142_del`, `C142_get_unhashable_refuted`, `C142_all_win_refuted`, `C142_range_nodup`, `C142_update_refuted`, `C145_shape`, `C149_key_refuted`, `C149_tamper_refuted`, `C150_stream`, `C150_between`, `C150_digest`, `C152_stat`, `C152_unique`, `C152_nolink`, `C152_lexical`, `C152_exact`, `C153_isdir`, `C153_existed`, `C153_compare`, `C154_mkdir`, `C154_already`, `C154_createdir`, `C154_success`, `C155_deleted`, `C155_name`, `C155_link`, `C155_failure`, `C156_copy`, `C156_fresh`, `C156_self`, `C156_success`, `C156_failure`, `C157_links`, `C157_inside_partial`, `C157_last`, `C158_changes`, `C158_failure`, `C158_file`, `C158_empty_refuted`, `C162_panic_refuted`, `C162_stuck_refuted`, `C163_same`, `C163_swaps`, `C163_n_same`, `C165_unzip_needs`, `C166_taking_clears_nothing`, `C168_closed`, `C168_panic_only`, `C168_panic_refuted`, `C168_rest`, `C168_refines`, `C168_buffer`, `C168_not_before`, `C168_next_push_blocks`, `C168_returns`, `C170_lcg`, `C170_lcg_injective`, `C170_prefix`, `C171_simulated`, `C171_simulated_paced`, `C174_stop_refuted`, `C177_fifo`, `C177_ahead`, `C177_slow_refuted`, `C177_closes_only`, `C177_others_open`, `C178_late_refuted`, `C181_same`, `C181_source`, `C183_pieces`, `C183_removed`, `C184_early_refuted`, `C184_deadlock_refuted`, `C184_example`, `C185_alone_exists`, `C185_mixed_refuted`, `C185_repeat_refuted`, `C193_contains`, `C193_len`

**Classical.choice, Quot.sound, propext** (620):
`C01_isPowOf2_iff`, `C02_roundUp_least`, `C02_roundUp_unrepresentable`, `C03_roundDown_greatest`, `C03_roundDown_zero`, `C04_documented_values`, `C05_split_covers`, `C05_split_panics_iff`, `C07_heap_refines_priority_queue`, `C07_peek_is_minimum`, `C08_heap_conserves`, `C08_remove_returns_index`, `C09_drain_sorts`, `C10_new_push_never_panic`, `C10_pop_peek_panic_iff_empty`, `C10_remove_panic_iff_out_of_range`, `C10_fix_panic_iff`, `C11_arity4_partial`, `C11_arity3_pushPop_partial`, `C11_arity_ge5_refuted`, `C12_heapN_conserves`, `C12_heapN_never_panics`, `C13_handles_stay_valid`, `C13_never_panics`, `C13_len_and_value`, `C14_min`, `C14_peek_min`, `C15_meap_is_map`, `C15_never_panics`, `C16_min`, `C17_pqueue`, `C17_pqueue_total`, `C18_fix_fifo_partial`, `C19_round_fifo_forever`, `C20_unbounded_fifo_partial`, `C20_never_too_large`, `C20_capacity`, `C21_fix_bulk`, `C21_round_bulk`, `C22_fix_wrap_iff`, `C23_bulk_partial`, `C23_bulk_unread_partial`, `C23_counters`, `C24_round_new_partial`, `C24_round_huge_refuted`, `C25_refines_sequences`, `C25_spec_meaning`, `C26_non_member`, `C27_push_list`, `C28_clear_partial`, `C29_deque`, `C30_stack`, `C31_card`, `C32_per_window`, `C33_any_interval`, `C33_limit_refuted`, `C34_no_spurious`, `C35_burst_and_rate`, `C36_level_range`, `C36_reject_only_full`, `C36_recovers`, `C37_burst_and_rate`, `C37_tokens_range`, `C37_negative_capacity_refuted`, `C38_total`, `C38_overflow_refuted`, `C39_exact`, `C39_new`, `C39_aligned`, `C39_any_interval`, `C39_full_length_refuted`, `C39_zero_window_refuted`, `C40_size`, `C40_no_spurious`, `C41_every_rule`, `C42_succeeds`, `C42_reports`, `C43_sorts`, `C43_new`, `C43_order`, `C44_independent_partial`, `C45_fixed_bound`, `C45_window`, `C45_log`, `C46_no_false_negative`, `C46_bytes`, `C47_as_new`, `C47_empty`, `C48_exact`, `C48_set`, `C48_mono`, `C49_total`, `C49_untouched`, `C51_not_early`, `C51_least`, `C52_conserved`, `C52_exclusion`, `C53_awake`, `C53_quiet`, `C53_delivers`, `C54_released`, `C54_cancel_refuted`, `C55_pop`, `C55_peek`, `C56_add`, `C56_levels`, `C57_not_early`, `C57_one`, `C57_kept`, `C58_conserved`, `C58_one_bucket`, `C58_registered`, `C58_at_most_once`, `C58_registered_once`, `C59_stopped`, `C59_never_both`, `C59_started`, `C60_accepted`, `C60_ends`, `C60_delivers_partial`, `C60_dropped`, `C60_refuted`, `C60_zero_refuted`, `C61_buffer`, `C61_leak_refuted`, `C62_ends`, `C62_size_one_refuted`, `C62_size_one_new_refuted`, `C63_no_deadlock`, `C63_lower`, `C63_goes_on`, `C63_refuted`, `C64_sent`, `C64_stops`, `C64_example`, `C64_empty_refuted`, `C65_limit`, `C65_mixed_refuted`, `C66_terminates`, `C66_refuted`, `C66_refuted_example`, `C67_aligned`, `C67_empty`, `C67_result`, `C67_ragged`, `C68_batches`, `C68_run`, `C69_sets`, `C69_lacks`, `C69_order_refuted`, `C69_no_fields_refuted`, `C69_example`, `C70_alphabet`, `C70_no_error`, `C70_roundtrip`, `C70_injective`, `C70_shape`, `C70_newlines`, `C70_malformed`, `C71_numeral`, `C71_roundtrip`, `C71_injective`, `C71_no_leading_zero`, `C72_numeral`, `C72_invalid_partial`, `C72_invalid_exact`, `C72_invalid_refuted`, `C74_panics_iff`, `C75_shape`, `C75_collision`, `C76_result`, `C76_refuted`, `C77_reported`, `C77_reassembled`, `C78_twice_exact`, `C78_idempotent_refuted`, `C78_never_reported`, `C78_missing_refuted`, `C78_nothing_uploaded_partial`, `C79_own_upload_partial`, `C79_others_kept`, `C79_empty_refuted`, `C79_dotdot_refuted`, `C80_empty`, `C80_short_names`, `C80_name`, `C80_name_depends`, `C80_mobile`, `C80_email_short`, `C80_email`, `C80_email_depends`, `C80_bytes_refuted`, `C81_idcard`, `C81_mobile`, `C81_bankcard`, `C81_depends`, `C81_short_refuted`, `C81_bankcard_refuted`, `C81_non_ascii_refuted`, `C82_shape`, `C82_depends`, `C82_short_refuted`, `C83_refuted`, `C84_slice`, `C84_runes`, `C84_concat`, `C84_whole`, `C84_beyond`, `C85_iff`, `C85_inside`, `C85_inside_concat`, `C85_needed`, `C85_strict`, `C86_partial`, `C86_refuted`, `C86_all_written`, `C87_sound`, `C87_root`, `C88_copied_refuted`, `C89_scan_partial`, `C89_root_refuted`, `C90_text`, `C90_no_trailing`, `C90_prefix`, `C90_no_pairs`, `C90_ignored`, `C91_shape`, `C92_linearizable`, `C93_default`, `C94_format_byte_refuted`, `C95_cannot_open`, `C95_row_refuted`, `C95_write_exact`, `C95_kept_partial`, `C96_multiple`, `C96_nearest_partial`, `C96_negative_exact`, `C96_negative_refuted`, `C97_last_refuted`, `C97_image`, `C97_image_partial`, `C97_image_refuted`, `C97_unicode_refuted`, `C99_refuted`, `C100_injective`, `C100_refuted`, `C101_refuted`, `C101_partial`, `C101_second_partial`, `C102_refuted`, `C102_partial`, `C103_upload_stays_inside_partial`, `C103_upload_escapes_refuted`, `C103_make_escapes_refuted`, `C104_mkdir`, `C104_create_dir`, `C104_fails_iff`, `C105_success_iff`, `C106_file_exist_refuted`, `C108_exact`, `C108_roundtrip_partial`, `C108_nil`, `C108_injective_partial`, `C108_utf8_refuted`, `C108_deterministic`, `C109_overflow_refuted`, `C109_other_refuted`, `C109_number_partial`, `C109_exact`, `C109_unique`, `C110_html`, `C111_appended_partial`, `C111_calls_partial`, `C111_ragged_refuted`, `C111_glued_refuted`, `C112_read`, `C112_exact`, `C113_name_empty`, `C113_collision_refuted`, `C115_open_fails`, `C115_chunk_fails`, `C115_success_partial`, `C115_read_refuted`, `C115_write_fails`, `C115_write_refuted`, `C116_file_md5`, `C117_image`, `C117_injective`, `C117_empty`, `C117_type_refuted`, `C118_failure_refuted`, `C119_small`, `C119_text_partial`, `C119_carry_refuted`, `C119_negative_refuted`, `C119_round`, `C119_float`, `C120_order_partial`, `C120_injective_partial`, `C120_shape_partial`, `C120_order_refuted`, `C121_exclusive`, `C121_first`, `C121_pdf`, `C121_image`, `C121_video_partial`, `C121_mp4_refuted`, `C121_text_partial`, `C121_text_refuted`, `C122_text_partial`, `C122_foreign_refuted`, `C122_map`, `C122_ints`, `C122_deterministic`, `C122_injective_partial`, `C122_type_refuted`, `C123_backslash_refuted`, `C124_run`, `C124_total`, `C124_unnoticed_refuted`, `C124_silent_refuted`, `C125_parent_partial`, `C125_error`, `C126_delete_succeeds`, `C126_delete`, `C126_ok`, `C126_column`, `C126_hard_refuted`, `C127_ids`, `C127_id`, `C127_where`, `C127_atomic`, `C127_ok`, `C127_missing_refuted`, `C127_deleted_refuted`, `C128_marks_partial`, `C128_columns`, `C128_again_refuted`, `C128_missing_refuted`, `C130_once`, `C130_delivers`, `C130_stuck_refuted`, `C130_lost_refuted`, `C131_injective`, `C132_dump_partial`, `C132_error`, `C132_nil_refuted`, `C132_string_refuted`, `C133_decimal_partial`, `C133_near_partial`, `C133_idempotent`, `C133_half_refuted`, `C133_whole_refuted`, `C133_overflow_refuted`, `C133_range_refuted`, `C133_special`, `C133_negative_refuted`, `C133_low_refuted`, `C133_whole_exact`, `C133_negative_whole_refuted`, `C133_negative_idempotent_refuted`, `C133_zero_exact`, `C133_right_exactly`, `C133_large_exact`, `C134_pow`, `C134_floor_partial`, `C134_within`, `C134_above_refuted`, `C134_convert_refuted`, `C134_undefined_refuted`, `C135_bits`, `C135_probes`, `C135_rate_partial`, `C135_rate_twice`, `C135_rate_refuted`, `C135_one`, `C136_same`, `C136_new`, `C136_keeps`, `C136_sorts`, `C136_popped_stays`, `C136_push_exact`, `C136_moved`, `C136_update`, `C137_apart`, `C137_panics`, `C137_foreign_exact`, `C137_foreign_panic`, `C137_dead`, `C138_new_keys`, `C138_leak_refuted`, `C139_order`, `C139_nan`, `C139_symmetry_refuted`, `C139_abs`, `C139_numbers`, `C139_all_numbers`, `C140_conserved`, `C140_at_most_once`, `C140_one_bucket`, `C140_registered`, `C140_blocked`, `C140_deadlock_refuted`, `C141_bad_refuted`, `C141_dead`, `C141_flat`, `C141_readers`, `C141_ends`, `C142_get`, `C142_range_once`, `C142_clear`, `C142_clear_empty`, `C142_update`, `C142_range_goes_on`, `C143_calendar`, `C143_days`, `C143_valid`, `C143_order`, `C143_dir_partial`, `C143_back_refuted`, `C144_no_ghosts`, `C144_one_adder`, `C144_as_one`, `C144_lost_refuted`, `C145_serial`, `C146_insert`, `C146_update`, `C146_read_insert`, `C146_read_update`, `C146_mark_refuted`, `C146_array_refuted`, `C146_limit_refuted`, `C147_update`, `C147_insert`, `C147_id_refuted`, `C147_half_refuted`, `C148_cipher`, `C148_permutation`, `C148_roundtrip`, `C150_helpers`, `C150_collision_refuted`, `C151_counts`, `C151_counters`, `C151_settled`, `C151_tso`, `C151_unread`, `C151_pending`, `C152_text_refuted`, `C152_reach_refuted`, `C153_dangling_refuted`, `C153_loop_refuted`, `C154_dangling_refuted`, `C155_text_refuted`, `C155_missing_refuted`, `C156_dangling_refuted`, `C156_empty_refuted`, `C157_refuted`, `C157_dest_refuted`, `C158_success`, `C158_text_refuted`, `C158_link_refuted`, `C158_target_refuted`, `C159_scan`, `C159_read_refuted`, `C159_behind_refuted`, `C160_sizes`, `C160_probes`, `C160_rate_partial`, `C160_rate_twice`, `C160_bits_refuted`, `C161_not_early`, `C161_no_waiting`, `C161_run_goes_on`, `C161_none_late`, `C162_same`, `C162_not_early`, `C162_after`, `C163_push`, `C163_pop`, `C163_remove`, `C163_fix`, `C163_new`, `C163_loops`, `C163_n_bounds`, `C163_counted`, `C164_grow`, `C164_bounds`, `C164_exact`, `C165_one_file`, `C165_copyFile`, `C165_upload_partial`, `C165_upload_leaks`, `C165_uploads_refuted`, `C165_makeFile`, `C165_makeFile_refuted`, `C165_zipFiles`, `C165_unzip_partial`, `C165_unzip_refuted`, `C166_fix_partial`, `C166_round`, `C166_grow`, `C166_popped_refuted`, `C167_list_keeps_its_elements`, `C167_removed_points_to_nothing`, `C167_cleared_refuted`, `C168_at_most_once`, `C168_exclusive`, `C168_receiver`, `C168_released`, `C168_looks`, `C168_adder_blocked`, `C168_run_blocked`, `C168_after_cancel_refuted`, `C168_run_refuted`, `C169_single_probe`, `C169_upper_partial`, `C169_rate_refuted`, `C170_shape`, `C170_fresh_refuted`, `C170_few`, `C170_every_refuted`, `C170_state`, `C171_conserved`, `C171_at_most_once`, `C171_not_early`, `C171_forgotten_refuted`, `C171_early_refuted`, `C172_exact`, `C172_bound`, `C172_exceeded_refuted`, `C172_outage_refuted`, `C173_exact`, `C173_bound`, `C173_exceeded_refuted`, `C174_follows`, `C174_distinct`, `C174_stop`, `C174_spin_refuted`, `C175_intact`, `C175_retries`, `C175_bytes`, `C175_others`, `C175_names`, `C175_alone`, `C175_mixed_refuted`, `C175_zeros_refuted`, `C175_make_refuted`, `C176_whole`, `C176_grows`, `C176_lost_refuted`, `C176_alone`, `C177_once`, `C177_delivers`, `C178_conserved`, `C178_registered`, `C178_never`, `C178_lost_refuted`, `C178_joins_refuted`, `C179_cells`, `C179_popped_refuted`, `C179_only`, `C180_pieces`, `C180_together`, `C180_alone`, `C181_bytes`, `C181_length`, `C183_all`, `C184_conserved`, `C184_at_most_once`, `C184_registered`, `C184_exclusive`, `C185_shape`, `C185_goes_on`, `C185_alone`, `C186_pow`, `C186_special`, `C186_mono`, `C186_sign`, `C186_near`, `C186_relative_refuted`, `C187_reap_cells`, `C187_reap_goes_on`, `C187_reap_only`, `C187_reap_removed_refuted`, `C187_reap_popped_refuted`, `C187_meap_cells`, `C187_meap_only`, `C187_meap_removed_refuted`, `C188_order`, `C188_whole`, `C189_pow`, `C189_special`, `C189_mono`, `C189_float32`, `C189_accurate`, `C189_sign`, `C190_value`, `C190_sign`, `C190_minus_zero`, `C190_plus`, `C190_unit`, `C191_order`, `C191_nan`, `C191_asymmetric`, `C191_abs`, `C191_numbers`, `C191_all_numbers`, `C191_through_float64`, `C191_widens`, `C192_run`, `C192_total`, `C192_same`, `C192_cat_refuted`, `C193_float64`, `C193_nan_refuted`, `C194_sorts`, `C194_minimum`, `C194_nan_refuted`, `C195_half_partial`, `C195_rate_refuted`
