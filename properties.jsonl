{"id": "C01", "title": "IsPowOf2 is exact", "statement": "IsPowOf2(n) returns true if and only if n is 2^k for some k; in particular 0 is not a power of two.", "quantifier": "every value n of every unsigned width w", "why_tests_cant": "the domain is 2^64 values per width; tests sample a handful", "anchors": ["common/math/math.go:IsPowOf2"]}
{"id": "C02", "title": "RoundUpPowOf2 returns the least power of two >= n", "statement": "For 1 <= n <= 2^(w-1), RoundUpPowOf2(n) is a power of two, is >= n, and no smaller power of two is >= n. For n = 0 and for n > 2^(w-1) (no representable answer) it returns 0.", "quantifier": "every value n of every unsigned width 1 <= w <= 64", "why_tests_cant": "all 2^64 inputs, including the wrap-around of n-1 and of the shift", "anchors": ["common/math/math.go:RoundUpPowOf2", "common/math/math.go:FindLastBitSet"]}
{"id": "C03", "title": "RoundDownPowOf2 returns the greatest power of two <= n", "statement": "For n >= 1 RoundDownPowOf2(n) is a power of two, is <= n, and twice it is > n. For n = 0 the call panics (negative shift).", "quantifier": "every value n of every unsigned width 1 <= w <= 64", "why_tests_cant": "all 2^64 inputs", "anchors": ["common/math/math.go:RoundDownPowOf2"]}
{"id": "C04", "title": "FindLastBitSet is the bit length", "statement": "FindLastBitSet(x) = r with x < 2^r, and r = 0 or 2^(r-1) <= x.", "quantifier": "every value x of every unsigned width <= 64", "why_tests_cant": "all 2^64 inputs", "anchors": ["common/math/math.go:FindLastBitSet"]}
{"id": "C05", "title": "Split covers n exactly", "statement": "Split(n,m) = (per,last) with 1 <= last <= per, and cutting n into pieces of size per with a final piece of size last uses all of n and at most m pieces; per is the smallest piece size for which m pieces suffice. It panics exactly when n = 0 or m = 0 (absent overflow of n+m-1). The doc comment's reading 'exactly m pieces' is also examined.", "quantifier": "every pair n,m of uint whose sum does not overflow", "why_tests_cant": "unbounded pairs of 64-bit numbers", "anchors": ["common/math/math.go:Split"]}
{"id": "C06", "title": "Max, Min, Abs", "statement": "Max/Min return one of their arguments and bound both; Abs returns the absolute value for every signed value except the most negative one, which it returns unchanged.", "quantifier": "every pair of ordered values; every signed w-bit value", "why_tests_cant": "all values of every ordered type", "anchors": ["common/math/math.go:Max", "common/math/math.go:Min", "common/math/math.go:Abs"]}
{"id": "C07", "title": "Heap always surfaces a minimum", "statement": "For a strict weak order less, after any history of New(slice), Push, Pop, Remove(i), and Fix(i) following a change of element i, Peek and Pop return an element that no stored element is less than.", "quantifier": "every element type, every strict weak order, every initial slice, every finite history", "why_tests_cant": "histories and orders are unbounded", "anchors": ["common/container/heap/heap.go:New", "common/container/heap/heap.go:Push", "common/container/heap/heap.go:Pop", "common/container/heap/heap.go:Peek", "common/container/heap/heap.go:Remove", "common/container/heap/heap.go:Fix"]}
{"id": "C08", "title": "Heap conserves its elements", "statement": "After any history the stored multiset is exactly initial + pushed - popped - removed (with replaced elements replaced); Len is its size; Remove(i) returns precisely the element that was at index i.", "quantifier": "every history, every less function (even an inconsistent one)", "why_tests_cant": "histories unbounded; also must hold for ill-behaved comparators", "anchors": ["common/container/heap/heap.go"]}
{"id": "C09", "title": "Draining a heap sorts", "statement": "New(xs) followed by len(xs) Pops returns a permutation of xs in non-decreasing order.", "quantifier": "every slice, every strict weak order", "why_tests_cant": "all slices", "anchors": ["common/container/heap/heap.go:New", "common/container/heap/heap.go:Pop"]}
{"id": "C10", "title": "Heap operations fail only on misuse", "statement": "Pop/Peek panic exactly on an empty heap, Remove(i)/Fix(i) exactly on out-of-range i (Fix as documented); no other call panics or fails to terminate.", "quantifier": "every state, index and comparator", "why_tests_cant": "termination and absence of panics for all states", "anchors": ["common/container/heap/heap.go"]}
{"id": "C11", "title": "n-ary heap surfaces a minimum", "statement": "For every arity n >= 2, after any history of Push, Pop, Remove(i), Fix(i), Peek/Pop return a minimal stored element.", "quantifier": "every arity n >= 2, strict weak order, history", "why_tests_cant": "arity and histories unbounded; the bug depends on arity", "anchors": ["common/container/heap/heapn.go:down", "common/container/heap/heapn.go:Pop", "common/container/heap/heapn.go:Remove"]}
{"id": "C12", "title": "n-ary heap conserves its elements", "statement": "For every arity and comparator, HeapN operations never lose, duplicate or invent elements and never panic or loop on in-range use; NewN panics exactly for n < 2.", "quantifier": "every arity, comparator, history", "why_tests_cant": "unbounded", "anchors": ["common/container/heap/heapn.go"]}
{"id": "C13", "title": "Reap entry handles stay valid", "statement": "Every entry returned by Push designates the same stored element until it is popped or removed, whatever happens to the heap meanwhile: Remove(e) deletes exactly that element and returns true, SetValue(e,v) changes exactly that element; once the entry has left the heap both return false and change nothing.", "quantifier": "every history of Push/Pop/Remove/SetValue on one Reap, every entry", "why_tests_cant": "handle/index consistency after arbitrarily many swaps", "anchors": ["common/container/reap/reap.go:Remove", "common/container/reap/reap.go:SetValue", "common/container/reap/reap.go:swap", "common/container/reap/reap.go:pop"]}
{"id": "C14", "title": "Reap surfaces a minimum", "statement": "After any history Peek/Pop return a minimal live value, including after SetValue.", "quantifier": "every strict weak order, every history", "why_tests_cant": "unbounded histories", "anchors": ["common/container/reap/reap.go"]}
{"id": "C15", "title": "Meap is a map", "statement": "After any history of Push/Pop/Remove, Get(k) returns the value of the latest Push(k,v) not followed by a Remove(k) or by a Pop that returned k; Contains agrees with Get; Len is the number of live keys.", "quantifier": "every history, every key, every comparator", "why_tests_cant": "unbounded histories", "anchors": ["common/container/meap/maep.go:Get", "common/container/meap/maep.go:Push", "common/container/meap/maep.go:Remove", "common/container/meap/maep.go:Contains"]}
{"id": "C16", "title": "Meap surfaces a minimum entry", "statement": "After any history Peek/Pop return a live entry that no live entry is less than; Pop removes exactly that key.", "quantifier": "every strict weak order on entries, every history", "why_tests_cant": "unbounded", "anchors": ["common/container/meap/maep.go:Pop", "common/container/meap/maep.go:Peek"]}
{"id": "C17", "title": "PriorityQueue delivers in priority order", "statement": "From New(xs), any history of Push/Pop behaves like a multiset where each Pop removes a minimal element.", "quantifier": "every history", "why_tests_cant": "unbounded", "anchors": ["common/container/pqueue/pqueue.go"]}
{"id": "C18", "title": "Fixed ring is a bounded FIFO queue", "statement": "fix.New(size) followed by any history of Push, Pop, Peek, MPush, MPop, MPopCopy, Reset behaves as a FIFO queue of capacity size: same results, same Len/Avail/Empty/Full, panics exactly for Push on full and Pop/Peek on empty.", "quantifier": "every size 1..MaxInt64, element type, finite history", "why_tests_cant": "index arithmetic modulo size for every size and history", "anchors": ["common/container/ringbuffer/fix/fix.go"]}
{"id": "C19", "title": "Power-of-two ring is a bounded FIFO queue, forever", "statement": "round.New(size) behaves as a FIFO queue whose capacity is the least power of two >= size, for histories of any length, including after the 64-bit counters wrap around.", "quantifier": "every size 1..2^62, every finite history (no bound on the number of pushes)", "why_tests_cant": "2^64 pushes cannot be executed", "anchors": ["common/container/ringbuffer/round/roud.go"]}
{"id": "C20", "title": "Unbounded ring is an unbounded FIFO queue", "statement": "unbounded.New(init) behaves as an unbounded FIFO queue: Push/MPush never lose or reorder elements, growth preserves contents and order, explicit Grow(n) is invisible except for Cap.", "quantifier": "every initial size, every history whose contents stay below the size limit", "why_tests_cant": "all sizes and growth points", "anchors": ["common/container/ringbuffer/unbounded/unbounded.go:Grow", "common/container/ringbuffer/unbounded/unbounded.go:Push", "common/container/ringbuffer/unbounded/unbounded.go:MPush"]}
{"id": "C21", "title": "Bulk ring operations", "statement": "MPush on a bounded ring stores exactly the longest prefix that fits; MPop(n) returns the min(n,Len) oldest elements in order; MPopCopy(dst) overwrites exactly the first min(len(dst),Len) cells of dst with them and leaves the rest of dst untouched.", "quantifier": "every ring state, every argument", "why_tests_cant": "all offsets of wrap-around", "anchors": ["common/container/ringbuffer/fix/fix.go:MPush", "common/container/ringbuffer/fix/fix.go:MPop", "common/container/ringbuffer/fix/fix.go:MPopCopy", "common/container/ringbuffer/round/roud.go", "common/container/ringbuffer/unbounded/unbounded.go"]}
{"id": "C22", "title": "Rings survive counter wrap-around", "statement": "fix and unbounded rings keep FIFO behaviour even after the 64-bit read/write counters overflow.", "quantifier": "every size, histories with more than 2^64 pushes", "why_tests_cant": "2^64 operations cannot be run", "anchors": ["common/container/ringbuffer/fix/fix.go:Push", "common/container/ringbuffer/fix/fix.go:Pop", "common/container/ringbuffer/unbounded/unbounded.go:Push"]}
{"id": "C23", "title": "Rings are safe for one producer and one consumer", "statement": "As the doc comment promises, with one goroutine only pushing and one only popping (no Reset), the consumer obtains exactly the produced values, in order, under every interleaving.", "quantifier": "every interleaving of one producer and one consumer", "why_tests_cant": "schedules cannot be enumerated by tests", "anchors": ["common/container/ringbuffer/fix/fix.go:Ring", "common/container/ringbuffer/fix/fix.go:Push", "common/container/ringbuffer/fix/fix.go:Pop", "common/container/ringbuffer/round/roud.go:Ring"]}
{"id": "C24", "title": "Ring constructors honour the requested size", "statement": "New(size) returns a ring with Cap >= size, or panics if the size is 0 or too large; round's Cap is the least power of two >= size.", "quantifier": "every uint64 size", "why_tests_cant": "2^64 sizes", "anchors": ["common/container/ringbuffer/round/roud.go:New", "common/container/ringbuffer/fix/fix.go:New", "common/container/ringbuffer/unbounded/unbounded.go:New"]}
{"id": "C25", "title": "Doubly linked list refines a sequence", "statement": "After any history of PushFront, PushBack, InsertBefore, InsertAfter, Remove, MoveToFront, MoveToBack, MoveBefore, MoveAfter on any number of lists, each list, traversed forwards by Front/Next or backwards by Back/Prev, is exactly the abstract sequence; Len is its length.", "quantifier": "every history, any number of lists and elements", "why_tests_cant": "pointer surgery for every history", "anchors": ["common/container/list/list.go"]}
{"id": "C26", "title": "Operations on non-members do nothing", "statement": "Remove, InsertBefore/After, Move* given an element that belongs to another list or was removed leave every list unchanged (Insert* returns nil).", "quantifier": "every state, every foreign or removed element", "why_tests_cant": "unbounded", "anchors": ["common/container/list/list.go:Remove", "common/container/list/list.go:InsertBefore", "common/container/list/list.go:MoveBefore"]}
{"id": "C27", "title": "PushBackList/PushFrontList append a copy, even of the list itself", "statement": "l.PushBackList(o) makes l the concatenation l ++ o with fresh elements and leaves o unchanged; with o = l it doubles l. Symmetrically for PushFrontList.", "quantifier": "every pair of lists, including the same one", "why_tests_cant": "unbounded; aliasing", "anchors": ["common/container/list/list.go:PushBackList", "common/container/list/list.go:PushFrontList"]}
{"id": "C28", "title": "Clear empties the list for good", "statement": "After Clear the list is empty and handles obtained before Clear are no longer members: using them does not affect the list.", "quantifier": "every list, every old handle", "why_tests_cant": "must hold for every stale handle", "anchors": ["common/container/list/list.go:Clear", "common/container/list/list.go:Remove"]}
{"id": "C29", "title": "Deque is a double-ended queue", "statement": "Any history of PushFront/PushBack/PopFront/PopBack yields the results of the abstract sequence; Pop on an empty deque panics.", "quantifier": "every history", "why_tests_cant": "unbounded", "anchors": ["common/container/deque/deque.go"]}
{"id": "C30", "title": "Stack is LIFO", "statement": "Any history of Push/Pop/Peek yields LIFO results; Pop/Peek on empty panic.", "quantifier": "every history", "why_tests_cant": "unbounded", "anchors": ["common/container/stack/stack.go"]}
{"id": "C31", "title": "Set is a finite set", "statement": "After any history of Add/Remove, Contains(x) iff the last operation on x was Add; Len is the number of distinct members. (Needs key equality to be reflexive.)", "quantifier": "every history, key type with reflexive equality", "why_tests_cant": "unbounded", "anchors": ["common/container/set/set.go"]}
{"id": "C32", "title": "Fixed window never exceeds its limit per window", "statement": "For every call history with a non-decreasing clock, the calls accepted within one limiter window number at most limit (none if limit <= 0).", "quantifier": "every limit, window, call history and clock", "why_tests_cant": "unbounded histories and times", "anchors": ["common/limiter/fixed_window/fixed_window.go:TryAcquire"]}
{"id": "C33", "title": "Fixed window: any interval no longer than the window sees at most 2*limit accepts", "statement": "For any time interval of length at most window, accepted calls with timestamp in it number at most 2*limit; the stronger bound limit is false.", "quantifier": "every history, every interval", "why_tests_cant": "all intervals", "anchors": ["common/limiter/fixed_window/fixed_window.go:TryAcquire"]}
{"id": "C34", "title": "Fixed window never rejects spuriously", "statement": "A call is rejected only if limit calls were accepted in the window ending at that call (of length window).", "quantifier": "every history", "why_tests_cant": "all histories", "anchors": ["common/limiter/fixed_window/fixed_window.go:TryAcquire"]}
{"id": "C35", "title": "Leaky bucket bounds the burst and rate", "statement": "For a non-decreasing clock, the accepted calls in any stretch of the history spanning D seconds number at most peak + velocity*(floor(D)+1).", "quantifier": "every peak >= 0, velocity 0..10^9, history", "why_tests_cant": "all histories", "anchors": ["common/limiter/leaky_bucket/leaky_bucket_limiter.go:TryAcquire"]}
{"id": "C36", "title": "Leaky bucket level stays in range and rejects only when full", "statement": "The water level stays within [0,peak]; a call is rejected only when at least peak calls were accepted earlier; after an idle period long enough to drain, peak calls are accepted back to back.", "quantifier": "every history", "why_tests_cant": "all histories", "anchors": ["common/limiter/leaky_bucket/leaky_bucket_limiter.go:TryAcquire"]}
{"id": "C37", "title": "Token bucket bounds burst and rate", "statement": "For a non-decreasing clock the accepted calls in any stretch of history spanning D seconds number at most capacity + rate*(floor(D)+1), tokens stay in [0,capacity].", "quantifier": "every capacity >= 0, rate >= 0 (without 64-bit overflow), history", "why_tests_cant": "all histories", "anchors": ["common/limiter/token_bucket/token_bucket.go:TryAcquire"]}
{"id": "C38", "title": "Token bucket never over-issues", "statement": "The total number of calls accepted since construction is at most rate * floor(elapsed seconds); in particular none is accepted during the first second.", "quantifier": "every history; the overflow case is examined", "why_tests_cant": "all histories", "anchors": ["common/limiter/token_bucket/token_bucket.go:TryAcquire"]}
{"id": "C39", "title": "Sliding window bound", "statement": "For a non-decreasing clock, accepted calls within any interval shorter than window - smallWindow (and within any `window` aligned to small windows) number at most limit. The bound for arbitrary intervals of full length window is examined.", "quantifier": "every limit, window, smallWindow dividing it, history, interval", "why_tests_cant": "all histories and alignments", "anchors": ["common/limiter/sliding_window/sliding_window.go:TryAcquire"]}
{"id": "C40", "title": "Sliding window memory is bounded", "statement": "After any call the limiter stores at most window/smallWindow counters (plus none for expired windows); a call is rejected only if limit calls were accepted in the current window.", "quantifier": "every history with non-decreasing clock", "why_tests_cant": "all histories", "anchors": ["common/limiter/sliding_window/sliding_window.go:TryAcquire"]}
{"id": "C41", "title": "Sliding log enforces every strategy", "statement": "For every configured strategy (limit, window), accepted calls in any aligned window of that length number at most limit.", "quantifier": "every accepted configuration, history, map iteration order", "why_tests_cant": "all configurations and histories", "anchors": ["common/limiter/sliding_log/sliding_log.go:TryAcquire"]}
{"id": "C42", "title": "Sliding log reports a truly violated strategy", "statement": "When TryAcquire fails, the error's Limit/Window is a configured strategy whose window already holds at least Limit accepted calls, it is the violated strategy with the largest window, and nothing is recorded; when no strategy is exhausted the call succeeds.", "quantifier": "every history", "why_tests_cant": "all histories", "anchors": ["common/limiter/sliding_log/sliding_log.go:TryAcquire", "common/limiter/sliding_log/sliding_log.go:ViolationStrategyError"]}
{"id": "C43", "title": "Sliding log constructor validates strategies", "statement": "NewSlidingLogLimiter succeeds exactly when there is a strategy, every window is divisible by smallWindow, and strictly smaller windows (or equal windows) have strictly smaller limits; the outcome does not depend on argument order.", "quantifier": "every strategy list, every order", "why_tests_cant": "all lists", "anchors": ["common/limiter/sliding_log/sliding_log.go:NewSlidingLogLimiter"]}
{"id": "C44", "title": "Limiters built from the same strategy value are independent", "statement": "Constructing another limiter from the same strategy objects does not change the limits an existing limiter enforces (the code comment claims strategies are copied).", "quantifier": "every pair of limiters", "why_tests_cant": "aliasing across constructions", "anchors": ["common/limiter/sliding_log/sliding_log.go:NewSlidingLogLimiter"]}
{"id": "C45", "title": "Limiters are linearizable under concurrency", "statement": "Any number of goroutines calling TryAcquire under every interleaving obtain the results of some sequential order of the calls, with clock readings non-decreasing in that order; hence all bounds above hold under concurrency.", "quantifier": "every number of goroutines, every schedule", "why_tests_cant": "schedules are unbounded", "anchors": ["common/limiter/fixed_window/fixed_window.go", "common/limiter/leaky_bucket/leaky_bucket_limiter.go", "common/limiter/token_bucket/token_bucket.go", "common/limiter/sliding_window/sliding_window.go", "common/limiter/sliding_log/sliding_log.go"]}
{"id": "C46", "title": "Bloom filter has no false negatives", "statement": "After Add(x) (in any of its byte/string/hash forms) and any further operations except Clear, Contains(x) is true.", "quantifier": "every filter geometry, seed set, history", "why_tests_cant": "all histories, all hash values", "anchors": ["common/filter/bloom/bloom.go:Add", "common/filter/bloom/bloom.go:Contains"]}
{"id": "C47", "title": "Bloom Clear", "statement": "After Clear, Contains is false for every element (when the filter has at least one hash seed) and the filter behaves as new.", "quantifier": "every state", "why_tests_cant": "all states", "anchors": ["common/filter/bloom/bloom.go:Clear"]}
{"id": "C48", "title": "Bloom contents depend only on the set of added hashes", "statement": "Order and multiplicity of Adds do not matter; Contains(h) is true iff each probe bit of h is a probe bit of some added hash; Add never turns a Contains from true to false.", "quantifier": "every two histories adding the same set", "why_tests_cant": "all histories", "anchors": ["common/filter/bloom/bloom.go:Add", "common/filter/bloom/bloom.go:Contains", "common/filter/bloom/bloom.go:pos"]}
{"id": "C49", "title": "Bloom never indexes out of range", "statement": "For every filter built with a positive bit count, Add/Contains never panic; Len is the requested bit count rounded up to a multiple of 64, and bits beyond the probes are never touched.", "quantifier": "every hash, seed, geometry", "why_tests_cant": "2^64 hashes", "anchors": ["common/filter/bloom/bloom.go:pos", "common/filter/bloom/bloom.go:New", "common/filter/bloom/bloom.go:Len"]}
{"id": "C50", "title": "Hash.Sum64 is history independent", "statement": "Sum64(b) on one Hash depends only on the hasher's seed and b, whatever was hashed before; Sum64String(s) = Sum64(bytes of s).", "quantifier": "every history of calls", "why_tests_cant": "all histories", "anchors": ["common/hash/hash.go"]}
{"id": "C51", "title": "DelayQueue never delivers early", "statement": "Take returns an element only strictly after its expiration, Pop only at or after it; both return an element with the least expiration in the queue.", "quantifier": "every interleaving of any number of pushers and takers", "why_tests_cant": "schedules and clocks unbounded", "anchors": ["common/timer/delayqueue/delayqueue.go:Take", "common/timer/delayqueue/delayqueue.go:Pop"]}
{"id": "C52", "title": "DelayQueue loses and duplicates nothing", "statement": "Under every interleaving, pushed elements = delivered elements + elements still queued, as multisets.", "quantifier": "every interleaving", "why_tests_cant": "unbounded schedules", "anchors": ["common/timer/delayqueue/delayqueue.go"]}
{"id": "C53", "title": "DelayQueue wakes its consumer (no lost wakeup)", "statement": "A Take that sleeps is always woken no later than the earliest expiration in the queue: whenever it sleeps, either its timer deadline is <= the earliest expiration, or the queue is empty and it waits for a push, or a push is in the act of waking it.", "quantifier": "every interleaving; one consumer vs several is examined", "why_tests_cant": "lost wakeups depend on schedules", "anchors": ["common/timer/delayqueue/delayqueue.go:Take", "common/timer/delayqueue/delayqueue.go:Push"]}
{"id": "C54", "title": "DelayQueue Push never blocks forever", "statement": "A Push that decided to wake a consumer always finds one to receive the wakeup, so the mutex is always released; the case of a Take cancelled through its context is examined.", "quantifier": "every interleaving incl. cancellation", "why_tests_cant": "schedules", "anchors": ["common/timer/delayqueue/delayqueue.go:Push", "common/timer/delayqueue/delayqueue.go:Take"]}
{"id": "C55", "title": "DelayQueue non-blocking operations", "statement": "Pop returns false iff the queue is empty or its earliest element has not expired; Peek returns the earliest element without removing it; Empty iff no element is stored.", "quantifier": "every queue state and clock", "why_tests_cant": "all states", "anchors": ["common/timer/delayqueue/delayqueue.go:Pop", "common/timer/delayqueue/delayqueue.go:Peek", "common/timer/delayqueue/delayqueue.go:Empty"]}
{"id": "C56", "title": "Timing wheel places timers in the right bucket", "statement": "add puts a timer with expiration e in a bucket whose expiration b satisfies b <= e < b + (that wheel's tick), at the first level whose span contains e, or reports it as already due exactly when e < currentTime + tick.", "quantifier": "every tick >= 1, wheelSize >= 2, clock, expiration", "why_tests_cant": "all levels of the hierarchy", "anchors": ["common/timer/timingwheel/timing_wheel.go:add"]}
{"id": "C57", "title": "Timing wheel never fires early by a tick or more", "statement": "A task runs only after the wheel's current time has reached its expiration truncated to a tick; with tick = 1ms never before its expiration.", "quantifier": "every history of AfterFunc/advance/Stop", "why_tests_cant": "all histories", "anchors": ["common/timer/timingwheel/timing_wheel.go:addOrRun", "common/timer/timingwheel/bucket.go:flush"]}
{"id": "C58", "title": "Timing wheel loses no accepted timer", "statement": "Every timer accepted by add is in exactly one bucket until it is stopped or its task is started; a bucket holding a timer is registered in the delay queue; a timer is executed at most once per scheduling.", "quantifier": "every history", "why_tests_cant": "all histories", "anchors": ["common/timer/timingwheel/timing_wheel.go", "common/timer/timingwheel/bucket.go"]}
{"id": "C59", "title": "Stop is honest", "statement": "If Stop returns true the task of an AfterFunc timer never runs afterwards; a second Stop returns false; Stop returns false once the task was started.", "quantifier": "every history", "why_tests_cant": "all histories", "anchors": ["common/timer/timingwheel/bucket.go:Stop", "common/timer/timingwheel/bucket.go:remove", "common/timer/timingwheel/bucket.go:flush"]}
{"id": "C60", "title": "AfterFunc always runs its task", "statement": "A task scheduled by AfterFunc with any delay eventually is started if not stopped.", "quantifier": "every delay, every wheel", "why_tests_cant": "depends on sub-tick timing", "anchors": ["common/timer/timingwheel/timing_wheel.go:AfterFunc"]}
{"id": "C61", "title": "Cancelling Run's context stops it cleanly", "statement": "When its context is cancelled Run returns (without panicking), under every interleaving of the queue goroutine.", "quantifier": "every interleaving", "why_tests_cant": "select nondeterminism", "anchors": ["common/timer/timingwheel/timing_wheel.go:Run", "common/timer/timingwheel/delayqueue.go:channel"]}
{"id": "C62", "title": "Overflow wheels terminate", "statement": "Adding a timer creates finitely many overflow wheels and terminates, for tick >= 1, wheelSize >= 2; the degenerate sizes are examined.", "quantifier": "every expiration", "why_tests_cant": "recursion depth unbounded", "anchors": ["common/timer/timingwheel/timing_wheel.go:add", "common/timer/timingwheel/timing_wheel.go:setOverflowWheel"]}
{"id": "C63", "title": "flush never re-adds a timer into the bucket being flushed (no self-deadlock)", "statement": "While a bucket is flushed with its mutex held, no timer is added to that same bucket.", "quantifier": "every wheel state and bucket", "why_tests_cant": "self-deadlock only in rare layouts", "anchors": ["common/timer/timingwheel/bucket.go:flush", "common/timer/timingwheel/timing_wheel.go:addOrRun"]}
{"id": "C64", "title": "SplitInsert inserts every record once, in order", "statement": "On success the batches sent to the database concatenate to the given records; on the first failing batch it stops and reports the error, and exactly the preceding batches were sent.", "quantifier": "every record list, every field count 1..65000, every database behaviour", "why_tests_cant": "all sizes and failure points", "anchors": ["gorm_tools/gorm.go:SplitInsertTableRecords"]}
{"id": "C65", "title": "SplitInsert respects the placeholder limit", "statement": "Each batch sent uses at most 65000 values, if all records have as many fields as the first.", "quantifier": "every record list", "why_tests_cant": "all sizes", "anchors": ["gorm_tools/gorm.go:SplitInsertTableRecords"]}
{"id": "C66", "title": "SplitInsert terminates", "statement": "The call returns for every input.", "quantifier": "every record list and field count", "why_tests_cant": "non-termination only for extreme inputs", "anchors": ["gorm_tools/gorm.go:SplitInsertTableRecords"]}
{"id": "C67", "title": "BatchInsert aligns columns and values", "statement": "For every map iteration order, the i-th value of each row is that record's value for the i-th column name, columns are exactly the first record's fields, one placeholder group per record, rows in order; empty input sends nothing.", "quantifier": "every record list, every iteration order", "why_tests_cant": "map iteration order is random", "anchors": ["gorm_tools/gorm.go:BatchInsertTableRecords"]}
{"id": "C68", "title": "SplitUpdate partitions the update", "statement": "The batches are disjoint, cover exactly the given ids with their updates, each has at most 500 ids and none is empty; the first error stops the run.", "quantifier": "every update map, every iteration order", "why_tests_cant": "random map order, all sizes", "anchors": ["gorm_tools/update.go:SplitUpdateTableFieldWithoutVersionByID"]}
{"id": "C69", "title": "BatchUpdate sets exactly the requested fields", "statement": "When all ids update the same fields, the generated statement (placeholders matched with arguments) assigns to every listed id and field its own value and touches no other row, for every map iteration order; if some id lacks a field the call fails without executing anything, for the orders that select a field it lacks.", "quantifier": "every update map and iteration order", "why_tests_cant": "random map order", "anchors": ["gorm_tools/update.go:BatchUpdateTableFieldWithoutVersionByID"]}
{"id": "C70", "title": "Base64 round trip", "statement": "Base64Decode(Base64EncodeToByte(b)) = b and Base64DecodeToString(Base64Encode(s)) = s for all byte strings.", "quantifier": "every byte string", "why_tests_cant": "all lengths and bytes", "anchors": ["help/utils/base64.go"]}
{"id": "C71", "title": "Integer/string round trip", "statement": "StringToInt(IntToString(x)) = x and StringToInt64(Int64ToString(x)) = x for every 64-bit integer; IntToString is injective.", "quantifier": "every int64", "why_tests_cant": "2^64 values", "anchors": ["help/utils/ints.go", "help/utils/strings.go:StringToInt"]}
{"id": "C72", "title": "StringToInt on bad input", "statement": "A syntactically invalid string gives 0; an out-of-range number saturates at the 64-bit extreme of its sign.", "quantifier": "every string", "why_tests_cant": "all strings", "anchors": ["help/utils/strings.go:StringToInt", "help/utils/strings.go:StringToInt64"]}
{"id": "C73", "title": "AES round trip", "statement": "For every key of 16, 24 or 32 bytes and every plaintext, AesDecrypt(AesEncrypt(d,k),k) = d with nil error; the ciphertext length is the next multiple of 16 above len(d).", "quantifier": "every plaintext and key, every block cipher with inverse decryption", "why_tests_cant": "all lengths", "anchors": ["help/utils/md5.go:AesEncrypt", "help/utils/md5.go:AesDecrypt"]}
{"id": "C74", "title": "AesDecrypt reports bad ciphertext as an error", "statement": "AesDecrypt never panics on malformed input; it returns an error.", "quantifier": "every byte string", "why_tests_cant": "all malformed inputs", "anchors": ["help/utils/md5.go:AesDecrypt", "help/utils/md5.go:pkcs7UnPadding"]}
{"id": "C75", "title": "MD5 helpers agree", "statement": "Md5, Md5Crypt, MD5V and ComputeFileMD5 return the same 32-character lowercase hex string for the same content, however the reader chunks it; CheckMd5 accepts exactly that string.", "quantifier": "every content, every chunking", "why_tests_cant": "all contents", "anchors": ["help/utils/md5.go", "help/utils/breakpoint_continue.go:MD5V", "help/utils/breakpoint_continue.go:CheckMd5"]}
{"id": "C76", "title": "AesEncrypt does not modify the caller's memory", "statement": "Encrypting a sub-slice leaves the caller's backing array unchanged.", "quantifier": "every slice and backing array", "why_tests_cant": "aliasing through spare capacity", "anchors": ["help/utils/md5.go:pkcs7Padding"]}
{"id": "C77", "title": "Resumable upload reassembles the file", "statement": "After chunks 0..n-1 have been uploaded in any order, with repetitions, interrupted uploads that were later repeated, and uploads of other files, MakeFile for a new target yields exactly chunk0 ++ ... ++ chunk(n-1).", "quantifier": "every chunking, upload order, crash point", "why_tests_cant": "orders and crash points unbounded", "anchors": ["help/utils/breakpoint_continue.go:BreakPointContinue", "help/utils/breakpoint_continue.go:MakeFile"]}
{"id": "C78", "title": "MakeFile is idempotent and detects missing chunks", "statement": "Calling MakeFile twice gives the same file; a missing chunk is reported.", "quantifier": "every upload state", "why_tests_cant": "crash/retry histories", "anchors": ["help/utils/breakpoint_continue.go:MakeFile"]}
{"id": "C79", "title": "RemoveChunk only removes its own upload", "statement": "RemoveChunk(h) deletes the chunks of upload h and no other upload's.", "quantifier": "every h", "why_tests_cant": "path edge cases", "anchors": ["help/utils/breakpoint_continue.go:RemoveChunk"]}
{"id": "C80", "title": "HideStar hides", "statement": "For names longer than 4 runes the output depends only on the first two and last two runes; for 11-digit mobile numbers only on the first 3 and last 4 digits; for e-mail addresses not on the local part after its first three characters; empty input gives ***.", "quantifier": "every string", "why_tests_cant": "all strings (non-interference)", "anchors": ["help/utils/strings.go:HideStar"]}
{"id": "C81", "title": "Mask functions hide the masked range", "statement": "MaskMobile/MaskIDCard/MaskBackCard on ASCII input longer than offset+maskNumber replace exactly the masked range by stars and keep everything else; the output does not depend on masked characters. Short or non-ASCII inputs are examined.", "quantifier": "every ASCII string and mask length", "why_tests_cant": "all strings", "anchors": ["help/utils/strings.go:MaskMobile", "help/utils/strings.go:MaskIDCard", "help/utils/strings.go:MaskBackCard"]}
{"id": "C82", "title": "MaskCustomerName hides the name", "statement": "The result shows at most the first two and last two characters and never panics; whether it hides anything for short multi-byte names is examined.", "quantifier": "every string", "why_tests_cant": "all byte strings", "anchors": ["help/utils/strings.go:MaskCustomerName"]}
{"id": "C83", "title": "UpperFirst capitalises", "statement": "UpperFirst(s) has its first letter in upper case.", "quantifier": "every string", "why_tests_cant": "all strings", "anchors": ["help/utils/strings.go:UpperFirst"]}
{"id": "C84", "title": "Substr2 is rune slicing", "statement": "For 0 <= start <= end <= number of runes, Substr2 returns runes start..end-1; adjacent pieces concatenate to the whole; start > end or negative panics.", "quantifier": "every string and indices", "why_tests_cant": "all strings", "anchors": ["help/utils/strings.go:Substr2"]}
{"id": "C85", "title": "IsMaliciousPath is sound", "statement": "If IsMaliciousPath(p) is false, joining p to any directory stays inside that directory.", "quantifier": "every path string and directory", "why_tests_cant": "all strings", "anchors": ["help/utils/files.go:IsMaliciousPath"]}
{"id": "C86", "title": "Unzip stays inside the destination", "statement": "Every path written by Unzip lies inside destDir.", "quantifier": "every archive", "why_tests_cant": "all entry names", "anchors": ["help/utils/zip.go:Unzip"]}
{"id": "C87", "title": "IsSameSiteURLPath", "statement": "IsSameSiteURLPath(u) is true only for URL references without scheme and authority (RFC 3986), and true for every '/x' path not starting with // or /\\.", "quantifier": "every string", "why_tests_cant": "all strings", "anchors": ["help/utils/files.go:IsSameSiteURLPath"]}
{"id": "C88", "title": "CopyFile copies", "statement": "After a successful CopyFile(dst,src) dst has exactly the content of src.", "quantifier": "every pair of file contents", "why_tests_cant": "all prior contents of dst", "anchors": ["help/utils/files.go:CopyFile"]}
{"id": "C89", "title": "ScanDir lists every file once", "statement": "ScanDir(dir) returns each non-directory file below dir exactly once, as dir/relative path.", "quantifier": "every directory tree", "why_tests_cant": "all trees", "anchors": ["help/utils/files.go:ScanDir"]}
{"id": "C90", "title": "BuildUrl shape", "statement": "BuildUrl output has no trailing slash and is either empty or starts with exactly the trimmed prefix; pairs with empty key or value 0 are skipped; an odd trailing parameter is ignored.", "quantifier": "every prefix and parameter list", "why_tests_cant": "all lists", "anchors": ["help/utils/url.go:BuildUrl"]}
{"id": "C91", "title": "RandStr shape", "statement": "RandStr(size,kind) has exactly size characters, all from the requested class, for every random source.", "quantifier": "every size >= 0, kind, random source", "why_tests_cant": "all random outcomes", "anchors": ["help/utils/rand.go:RandStr"]}
{"id": "C92", "title": "Map is a linearizable map", "statement": "Under every interleaving Get/Set/Del/Len/TestAndSet behave like an atomic map; of concurrent TestAndSet calls on an absent key exactly one wins.", "quantifier": "every interleaving", "why_tests_cant": "schedules unbounded", "anchors": ["help/utils/maps.go:Map"]}
{"id": "C93", "title": "Option switches", "statement": "GetSwitchFromOptions defaults to true and returns the stored flag; SetSwitchFromOptions makes a following Get return the value set (nil map examined).", "quantifier": "every map and key", "why_tests_cant": "all maps", "anchors": ["help/utils/maps.go:GetSwitchFromOptions", "help/utils/maps.go:SetSwitchFromOptions"]}
{"id": "C94", "title": "FormatByte formats its argument", "statement": "FormatByte(size) depends on size and scales it to the largest unit.", "quantifier": "every size", "why_tests_cant": "all sizes", "anchors": ["help/utils/files.go:FormatByte"]}
{"id": "C95", "title": "WriteCsv appends the given row", "statement": "WriteCsv(path, row) appends row to the file and keeps what was there.", "quantifier": "every row and file", "why_tests_cant": "all rows", "anchors": ["help/utils/csv.go:WriteCsv"]}
{"id": "C96", "title": "Round rounds to n decimals", "statement": "Round(f,n) is a multiple of 10^-n within half of it of f.", "quantifier": "every value", "why_tests_cant": "all values; float error excluded", "anchors": ["help/utils/math.go:Round"]}
{"id": "C97", "title": "File-name helpers", "statement": "GetSuffixName(s,sep) is the text after the last separator or empty when there is none; IsImage accepts exactly the seven image extensions case-insensitively.", "quantifier": "every string", "why_tests_cant": "all strings", "anchors": ["help/utils/files.go:GetSuffixName", "help/utils/files.go:IsImage"]}
{"id": "C98", "title": "The zero List is an empty list ready to use", "statement": "As its comment says, a zero-valued List can be used without New: it is empty and PushFront/PushBack insert into it.", "quantifier": "every value, every memory", "why_tests_cant": "documented contract of a type; holds for every element type", "anchors": ["common/container/list/list.go:List", "common/container/list/list.go:insert"]}
{"id": "C99", "title": "The timing wheel's queue sleeps until the next bucket is due", "statement": "When no bucket is due, take waits for a timer that fires when the first bucket expires, not before.", "quantifier": "every clock reading and expiration", "why_tests_cant": "the result is right either way, only the waiting differs", "anchors": ["common/timer/timingwheel/delayqueue.go:take"]}
{"id": "C100", "title": "Insert statements are unambiguous", "statement": "The statement sent by BatchInsert determines the columns and rows it stands for: no column name can pass for other names.", "quantifier": "every list of column names and rows", "why_tests_cant": "arbitrary names", "anchors": ["gorm_tools/gorm.go:BatchInsertTableRecords"]}
{"id": "C101", "title": "IsSameSiteURLPath as seen by a browser", "statement": "A URL accepted by IsSameSiteURLPath has neither scheme nor authority after a browser has removed tabs and newlines and turned backslashes into slashes (WHATWG URL).", "quantifier": "every string", "why_tests_cant": "all strings", "anchors": ["help/utils/files.go:IsSameSiteURLPath"]}
{"id": "C102", "title": "BuildUrl does not invent a host", "statement": "The result of BuildUrl has neither scheme nor authority (RFC 3986).", "quantifier": "every prefix and parameter list", "why_tests_cant": "all strings", "anchors": ["help/utils/url.go:BuildUrl"]}
{"id": "C103", "title": "Uploads stay in their directory", "statement": "BreakPointContinue(content, fileName, n, total, md5) changes nothing that existed outside the directory of upload md5; MakeFile writes only below the directory of finished files.", "quantifier": "every file system, name and failure", "why_tests_cant": "all names and file systems", "anchors": ["help/utils/breakpoint_continue.go:BreakPointContinue", "help/utils/breakpoint_continue.go:makeFileContent", "help/utils/breakpoint_continue.go:MakeFile"]}
{"id": "C104", "title": "CreateDir creates directories and nothing else", "statement": "If CreateDir succeeds all given directories exist; in any case what existed is unchanged and what is new is a directory on the way to one of them; it fails exactly if a file is in the way.", "quantifier": "every file system and list of directories", "why_tests_cant": "all file systems", "anchors": ["help/utils/files.go:CreateDir", "help/utils/files.go:PathExists"]}
{"id": "C105", "title": "FileMove moves", "statement": "A successful FileMove makes the target have what the source had (a whole tree for a directory), removes the source and changes nothing else; a failed one loses nothing.", "quantifier": "every file system and pair of paths", "why_tests_cant": "all trees and overlaps of source and target", "anchors": ["help/utils/files.go:FileMove"]}
{"id": "C106", "title": "FileExist and FileIsExisted tell the truth", "statement": "FileExist(p) is true exactly if there is a file at p; FileIsExisted(p) exactly if there is anything at p.", "quantifier": "every file system and path", "why_tests_cant": "all file systems", "anchors": ["help/utils/files.go:FileExist", "help/utils/files.go:FileIsExisted"]}
{"id": "C107", "title": "IsDir and IsFile", "statement": "IsDir(p) is true exactly if p is a directory, IsFile(p) exactly if p is a file.", "quantifier": "every file system and path", "why_tests_cant": "all file systems", "anchors": ["help/utils/files.go:IsDir", "help/utils/files.go:IsFile"]}
{"id": "C108", "title": "JsonStringToMap inverts MapIntToJsonString", "statement": "Reading the text that MapIntToJsonString makes of a map gives that map, and different maps have different texts.", "quantifier": "every map[string]int32", "why_tests_cant": "all keys with every kind of byte, all escapes, all int32 values", "anchors": ["help/utils/maps.go:MapIntToJsonString", "help/utils/maps.go:JsonStringToMap"]}
{"id": "C109", "title": "JsonStringToMap stores the numbers in the text", "statement": "A number in the text that is an int32 is stored under its key; anything else is reported and never stored as another number.", "quantifier": "every text with an object of numbers", "why_tests_cant": "all numbers, also those outside of int32", "anchors": ["help/utils/maps.go:JsonStringToMap"]}
{"id": "C110", "title": "The text of MapIntToJsonString is safe in HTML", "statement": "The text has no <, > or & and no control character.", "quantifier": "every map[string]int32", "why_tests_cant": "all keys", "anchors": ["help/utils/maps.go:MapIntToJsonString"]}
{"id": "C111", "title": "ReadCsv sees what WriteCsv appended", "statement": "After WriteCsv, ReadCsv gives the rows from before and the row written as the last one.", "quantifier": "every file content and number of calls", "why_tests_cant": "all earlier contents and numbers of calls", "anchors": ["help/utils/csv.go:WriteCsv", "help/utils/csv.go:ReadCsv"]}
{"id": "C112", "title": "ReadCsv reads tables", "statement": "ReadCsv gives the rows of every well-formed file in which all rows have the same number of values, and nil for ragged ones.", "quantifier": "every table, with plain or quoted values and both line ends", "why_tests_cant": "all tables, quotes, commas and newlines in values", "anchors": ["help/utils/csv.go:ReadCsv"]}
{"id": "C113", "title": "ZipFiles and Unzip restore the files", "statement": "Packing files with ZipFiles and unpacking the archive with Unzip gives every file its content back under the replaced name; if ZipFiles reports success, the archive can be read.", "quantifier": "every list of files, every replacement, every file system", "why_tests_cant": "all name combinations and failures of the operating system", "anchors": ["help/utils/zip.go:ZipFiles", "help/utils/zip.go:Unzip"]}
{"id": "C114", "title": "Unzip writes the archive and nothing else", "statement": "If Unzip succeeds, every file of the archive is on the disk with its content, and the paths returned are those of the entries; whether or not it succeeds, nothing else changes but directories made for entries; it succeeds whenever there is room and names do not collide.", "quantifier": "every archive, destination and file system", "why_tests_cant": "all archives and file systems", "anchors": ["help/utils/zip.go:Unzip"]}
{"id": "C115", "title": "MakeFile and failing reads and writes", "statement": "If putting the chunks together fails at any point (a chunk cannot be read to its end, or a write fails), MakeFile reports an error and a finished file of that name is left as it was; otherwise the content delivered is appended chunk by chunk.", "quantifier": "every file system, every file name and hash without separators, every pattern of failing reads and writes", "why_tests_cant": "failures of the operating system at every point", "anchors": ["help/utils/breakpoint_continue.go:MakeFile"]}
{"id": "C116", "title": "FileMd5 is the Md5 of the content", "statement": "FileMd5 succeeds exactly if the path is a file that can be read to its end, and then gives what Md5 gives for its content (so CheckMd5 accepts it); with an error it gives the empty string.", "quantifier": "every file system, path and failure of reading", "why_tests_cant": "all contents and failures", "anchors": ["help/utils/files.go:FileMd5", "help/utils/md5.go:Md5", "help/utils/breakpoint_continue.go:CheckMd5"]}
{"id": "C117", "title": "ImageFileToBase64 is decodable", "statement": "For every readable file the result is the data URL prefix of the type of the content and a text that decodes to the content; different contents have different results; it is empty exactly if reading fails.", "quantifier": "every file system, path and content", "why_tests_cant": "all contents", "anchors": ["help/utils/files.go:ImageFileToBase64"]}
{"id": "C118", "title": "DeLFile removes the path and nothing else", "statement": "DeLFile reports success exactly if nothing is left at or below the path, and never touches anything else; on failure nothing is removed.", "quantifier": "every file system and path", "why_tests_cant": "all paths, with dots and separators", "anchors": ["help/utils/files.go:DeLFile"]}
{"id": "C119", "title": "FileSize writes the size", "statement": "For every size FileSize returns without panicking a number, a space and a unit: the size in that unit, rounded to the precision shown, at least 1 and below 1024.", "quantifier": "every 64-bit number", "why_tests_cant": "all sizes, near every power of 1024", "anchors": ["help/utils/files.go:FileSize", "help/utils/files.go:humanateBytes"]}
{"id": "C120", "title": "GetTimeDir sorts by date", "statement": "The path of a day is its year, month and day as zero padded decimal numbers; different days have different paths, and sorting paths as strings sorts the days.", "quantifier": "every pair of days", "why_tests_cant": "all pairs of days", "anchors": ["help/utils/times.go:GetTimeDir"]}
{"id": "C121", "title": "Content predicates", "statement": "IsTextFile, IsImageFile, IsPDFFile and IsVideoFile are mutually exclusive and depend on the first 512 bytes only; data are an image, a PDF document or a video exactly if they begin as such a format does; they are a text exactly if they have no control characters.", "quantifier": "every byte string", "why_tests_cant": "all byte strings", "anchors": ["help/utils/files.go:IsTextFile", "help/utils/files.go:IsImageFile", "help/utils/files.go:IsPDFFile", "help/utils/files.go:IsVideoFile"]}
{"id": "C122", "title": "JSON of arbitrary maps", "statement": "MapToJsonString and Map2JsonString give a JSON text that says what the value is: numbers, strings, lists and members in the order of their keys. The text does not depend on the order of the map, and different values have different texts. A value without JSON gives an empty string and no error.", "quantifier": "every value made of nil, booleans, integers, floats, strings, slices and maps, nested to any depth", "why_tests_cant": "all values of any depth", "anchors": ["help/utils/maps.go:MapToJsonString", "help/utils/maps.go:Map2JsonString"]}
{"id": "C123", "title": "GetCurrentDir", "statement": "GetCurrentDir returns an absolute path without empty elements, . and .. that leads to the directory part of the path by which the program was called, seen from the working directory.", "quantifier": "every working directory and program path", "why_tests_cant": "all paths", "anchors": ["help/utils/runtime.go:GetCurrentDir"]}
{"id": "C124", "title": "ShellExec", "statement": "ShellExec executes the lines of the text in order; it returns all that they wrote to stdout, or an error with all they wrote to stderr, the latter exactly if a command failed.", "quantifier": "every shell, every script of lines", "why_tests_cant": "all scripts, with any effect of the commands", "anchors": ["help/utils/cmd.go:ShellExec"]}
{"id": "C125", "title": "Reload", "statement": "Reload sends SIGHUP to the parent process and to nobody else, and returns nil exactly if it was sent.", "quantifier": "every table of processes", "why_tests_cant": "all process tables", "anchors": ["help/utils/sys.go:Reload"]}
{"id": "C126", "title": "DelByTableNameAndId", "statement": "DelByTableNameAndId removes exactly the rows with one of the ids and leaves the others as they are; on an error nothing is changed; rows can be restored.", "quantifier": "every table, every list of ids", "why_tests_cant": "all tables", "anchors": ["gorm_tools/gorm.go:DelByTableNameAndId"]}
{"id": "C127", "title": "Updates by id and by conditions", "statement": "UpdateByTableNameAndId, UpdateByTableNameAndIds and UpdateByTableNameAndWhere change exactly the given columns of exactly the rows that are meant; on an error nothing is changed; without conditions nothing is changed; missing rows are reported; deleted rows are left alone.", "quantifier": "every table, list of ids, map of conditions and map of updates", "why_tests_cant": "all tables", "anchors": ["gorm_tools/gorm.go:UpdateByTableNameAndId", "gorm_tools/gorm.go:UpdateByTableNameAndIds", "gorm_tools/gorm.go:UpdateByTableNameAndWhere"]}
{"id": "C128", "title": "SoftDelByTableNameAndId", "statement": "SoftDelByTableNameAndId keeps the row and marks it with the time; nothing else is changed; doing it again changes nothing; a missing row is reported.", "quantifier": "every table, id and time", "why_tests_cant": "all tables", "anchors": ["gorm_tools/gorm.go:SoftDelByTableNameAndId"]}
{"id": "C129", "title": "InsertToTable", "statement": "InsertToTable adds all rows or none.", "quantifier": "every table and list of rows", "why_tests_cant": "all tables", "anchors": ["gorm_tools/gorm.go:InsertToTable"]}
{"id": "C130", "title": "Channel of the delay queue", "statement": "The reader of Channel gets exactly the entries Take delivers, in that order, each expired and once; the channel is closed only after the context was cancelled, and then nothing is lost; the goroutine ends when the context is cancelled.", "quantifier": "every interleaving of the goroutine with any number of callers of Push, Pop, Peek and Empty, every size of the channel", "why_tests_cant": "interleavings are unbounded", "anchors": ["common/timer/delayqueue/delayqueue.go:Channel"]}
{"id": "C131", "title": "Error of the sliding log", "statement": "The text of ViolationStrategyError tells limit and window: different strategies have different texts.", "quantifier": "every pair of errors", "why_tests_cant": "all pairs of numbers", "anchors": ["common/limiter/sliding_log/sliding_log.go:Error"]}
{"id": "C132", "title": "Records are dumped with all their fields", "statement": "dumpStructToMapForInsert maps every field of the record under its JSON name to its value, numbers with all their digits (not through float64), and reports a record that is no struct or map.", "quantifier": "every record of nested values up to the depth encoding/json reads", "why_tests_cant": "records are nested values of any shape; numbers above 2^53 and invalid UTF-8 are rarely in samples", "anchors": ["gorm_tools/gorm.go:dumpStructToMapForInsert"]}
{"id": "C133", "title": "Round on float64", "statement": "Round(f, n) in float64 arithmetic is the float64 next to the decimal with n places nearest to f; rounding twice changes nothing; whole numbers and the nearest decimal are kept.", "quantifier": "every float64 f and every n", "why_tests_cant": "2^64 values of f for each n; the failures are single numbers next to the middle of two decimals", "anchors": ["help/utils/math.go:Round"]}
{"id": "C134", "title": "Log2 is the whole part of the logarithm", "statement": "Log2(a) of a whole number is the k with 2^k <= a < 2^(k+1).", "quantifier": "every whole number of every width, every sufficiently accurate math.Log", "why_tests_cant": "2^64 values; fails only next to powers of two above 2^48", "anchors": ["common/math/math.go:Log2"]}
{"id": "C135", "title": "Sizes of a bloom filter give the wanted rate", "statement": "New chooses a multiple of 64 bits, at least as many as needed and less than 64 more, at least one probe, and so many probes that the estimated rate of false positives at capacity is at most the wanted one.", "quantifier": "every capacity and rate", "why_tests_cant": "a statement about all capacities and real rates", "anchors": ["common/filter/bloom/bloom.go:New"]}
{"id": "C136", "title": "A heap on the caller's array", "statement": "New does not copy the slice: the heap behaves as a heap of its elements wherever its cells are, the caller's slice keeps its elements (in another order) and everything behind it, popping everything leaves the slice sorted, and assigning to the slice and calling Fix updates the heap.", "quantifier": "every element type and order, every array with spare capacity, every history of calls, every growth policy of append", "why_tests_cant": "all histories and all capacities; the interesting cases depend on the growth of append", "anchors": ["common/container/heap/heap.go:New", "common/container/heap/heap.go:Push", "common/container/heap/heap.go:Pop", "common/container/heap/heap.go:Fix"]}
{"id": "C137", "title": "Several reaps", "statement": "An entry that Push of one reap returned may be given to Remove or SetValue of the same reap only; as long as this is so, several reaps in one program do not influence each other, and giving it to another one does no harm.", "quantifier": "every element type and order, any number of reaps, every program of calls", "why_tests_cant": "all programs over any number of heaps; entries are shared memory", "anchors": ["common/container/reap/reap.go:Push", "common/container/reap/reap.go:Remove", "common/container/reap/reap.go:SetValue"]}
{"id": "C138", "title": "A meap with keys that are not equal to themselves", "statement": "With keys such as NaN a meap still behaves as a map with a heap order: what was pushed is found under its key, a second Push replaces the first, Remove removes it and an empty heap has an empty index.", "quantifier": "every key type and notion of self-equality, every order, every history of calls", "why_tests_cant": "all histories, arbitrary mixtures of ordinary and odd keys", "anchors": ["common/container/meap/maep.go:Push", "common/container/meap/maep.go:Get", "common/container/meap/maep.go:Remove", "common/container/meap/maep.go:Contains", "common/container/meap/maep.go:Pop"]}
{"id": "C139", "title": "Max, Min and Abs of floating point numbers", "statement": "Max and Min return one of their arguments, the largest or the smallest, in whatever order they are given; Abs returns the absolute value. NaN, infinities and both zeros included.", "quantifier": "all 2^64 bit patterns, all pairs of them", "why_tests_cant": "2^128 pairs; NaN payloads and signs of zero are seldom tested", "anchors": ["common/math/math.go:Max", "common/math/math.go:Min", "common/math/math.go:Abs"]}
{"id": "C140", "title": "The timing wheel when goroutines are interrupted inside add", "statement": "However the goroutines that add timers and the goroutine of Run are interrupted inside add, no timer is lost or started twice, no bucket with timers is forgotten, Run does not wait for a mutex it holds itself, and no timer is started early.", "quantifier": "every interleaving of any number of goroutines at the steps of add, every tick and wheel size", "why_tests_cant": "needs a goroutine interrupted between two statements for the length of a delay", "anchors": ["common/timer/timingwheel/timing_wheel.go:add", "common/timer/timingwheel/timing_wheel.go:AfterFunc", "common/timer/timingwheel/timing_wheel.go:addOrRun", "common/timer/timingwheel/bucket.go:add", "common/timer/timingwheel/bucket.go:setExpiration", "common/timer/timingwheel/bucket.go:flush"]}
{"id": "C141", "title": "Callbacks of the ranges that use the map", "statement": "Callbacks of RLockRange and LockRange may use the map: goroutines that do so finish, and so do all others; without such callbacks there is no deadlock and every execution ends.", "quantifier": "every interleaving of any number of goroutines, every nesting of calls in callbacks", "why_tests_cant": "one deadlock needs a writer arriving between two read locks of another goroutine; nestings and schedules are unbounded", "anchors": ["help/utils/maps.go:RLockRange", "help/utils/maps.go:LockRange", "help/utils/maps.go:Get", "help/utils/maps.go:Set", "help/utils/maps.go:TestAndSet", "help/utils/maps.go:Del", "help/utils/maps.go:Len"]}
{"id": "C142", "title": "Map with odd keys and with callbacks that use the Unsafe methods", "statement": "Keys that cannot be hashed and keys that are not equal to themselves do not disturb the others; Get depends only on the pairs; of several TestAndSet with one key one wins; a range whose callback deletes or updates by the Unsafe methods visits every pair once, and empties or updates the map.", "quantifier": "every key type with any notion of equality and hashing, every history of calls, every order of the range, every callback", "why_tests_cant": "iteration order is random; arbitrary mixtures of keys", "anchors": ["help/utils/maps.go:UnsafeGet", "help/utils/maps.go:UnsafeSet", "help/utils/maps.go:UnsafeDel", "help/utils/maps.go:UnsafeLen", "help/utils/maps.go:UnsafeRange", "help/utils/maps.go:TestAndSet", "help/utils/maps.go:LockRange"]}
{"id": "C143", "title": "GetTimeDir at a moment", "statement": "At every moment and in every time zone GetTimeDir names the day of the Gregorian calendar; within a day it is constant, on later days it is greater, so as time passes it never goes back.", "quantifier": "all moments of 64-bit seconds that package time can tell, all offsets", "why_tests_cant": "292 thousand million years; leap years, ends of centuries, changes of the offset", "anchors": ["help/utils/times.go:GetTimeDir"]}
{"id": "C144", "title": "Bloom filter used by several goroutines", "statement": "If one goroutine adds at a time, Contains of a hash whose Add had returned is true at any time, and with nobody adding the filter is the one of the added hashes; with any number of adders Contains is never true without the bits having been set by calls of Add; what was added is found.", "quantifier": "every number of goroutines, every interleaving of the reads and writes of words, every seeds and sizes", "why_tests_cant": "lost updates need a rare interleaving", "anchors": ["common/filter/bloom/bloom.go:Add", "common/filter/bloom/bloom.go:Contains"]}
{"id": "C145", "title": "Hash used by several goroutines", "statement": "Called by one goroutine at a time Sum64 is the hash of its argument; otherwise every result is the hash of a concatenation of the last arguments; equal bytes have equal hashes.", "quantifier": "every number of goroutines, every interleaving of Reset, Write and Sum64, every hash function", "why_tests_cant": "needs a rare interleaving", "anchors": ["common/hash/hash.go:Sum64", "common/hash/hash.go:Sum64String"]}
{"id": "C146", "title": "Values arrive at their places", "statement": "What the driver gets for the statements of BatchInsertTableRecords and BatchUpdateTableFieldWithoutVersionByID, after GORM has expanded the place holders, is the statement with every value at its place and nothing left over; the text can be read back in only one way; the number of bound variables is that of the cells.", "quantifier": "all records, maps, orders of iteration, names and values", "why_tests_cant": "names and values of any shape", "anchors": ["gorm_tools/gorm.go:BatchInsertTableRecords", "gorm_tools/update.go:BatchUpdateTableFieldWithoutVersionByID", "gorm_tools/gorm.go:SplitInsertTableRecords"]}
{"id": "C147", "title": "Batch statements in a database", "statement": "After SplitUpdateTableFieldWithoutVersionByID every row whose id is in the map has its values and everything else is as it was; after SplitInsertTableRecords the rows of the records have been added in order; on error nothing has been changed.", "quantifier": "all tables, maps and records of any size, all orders of iteration in all loops", "why_tests_cant": "the order of iteration is random and the batches are many", "anchors": ["gorm_tools/update.go:SplitUpdateTableFieldWithoutVersionByID", "gorm_tools/update.go:BatchUpdateTableFieldWithoutVersionByID", "gorm_tools/gorm.go:SplitInsertTableRecords", "gorm_tools/gorm.go:BatchInsertTableRecords"]}
{"id": "C148", "title": "The AES helpers with AES", "statement": "The block cipher of FIPS-197 permutes blocks and its inverse undoes it, so that AesDecrypt gives back what AesEncrypt was given, with AES itself and not only with some cipher.", "quantifier": "all keys, blocks and data", "why_tests_cant": "2^128 blocks and as many keys", "anchors": ["help/utils/md5.go:AesEncrypt", "help/utils/md5.go:AesDecrypt"]}
{"id": "C149", "title": "Ciphertexts chosen by others", "statement": "Having ciphertexts decrypted by AesDecrypt does not give away the key, and altered ciphertexts are noticed.", "quantifier": "all ciphers, keys and data", "why_tests_cant": "an attack is not found by trying inputs", "anchors": ["help/utils/md5.go:AesDecrypt", "help/utils/md5.go:AesEncrypt", "help/utils/md5.go:pkcs7UnPadding"]}
{"id": "C150", "title": "The MD5 helpers with MD5", "statement": "Md5, Md5Crypt, MD5V and ComputeFileMD5 give the MD5 of RFC 1321 of the content, however a reader cuts it into pieces; a content that passes CheckMd5 is the one whose digest was taken.", "quantifier": "all contents of any length, all pieces", "why_tests_cant": "the boundaries of blocks and pieces are unboundedly many", "anchors": ["help/utils/md5.go:Md5", "help/utils/md5.go:Md5Crypt", "help/utils/md5.go:ComputeFileMD5", "help/utils/breakpoint_continue.go:MD5V", "help/utils/breakpoint_continue.go:CheckMd5"]}
{"id": "C151", "title": "The bounded rings with store buffers", "statement": "One goroutine with MPush and one with MPop or MPopCopy on a bounded ring, whose stores reach the memory later: what the consumer has obtained is a beginning of what was produced, at most Size elements lie between, and nothing gets lost.", "quantifier": "all sizes, batches, numbers of calls, all interleavings of loads, stores and arrivals of stores", "why_tests_cant": "on the machine where tests run the reordering does not exist or is rare", "anchors": ["common/container/ringbuffer/fix/fix.go:MPush", "common/container/ringbuffer/fix/fix.go:MPop", "common/container/ringbuffer/fix/fix.go:MPopCopy", "common/container/ringbuffer/round/roud.go:MPush", "common/container/ringbuffer/round/roud.go:MPop"]}
{"id": "C152", "title": "Where paths lead", "statement": "Stat gives the node of the one place to which a path leads, step by step and over at most 40 links. Without links that is the place which the text of the path names, and it is reached exactly if every element is looked up in a directory.", "quantifier": "all file systems with links, all paths", "why_tests_cant": "the trees and chains of links are unboundedly many", "anchors": ["help/utils/files.go:PathExists", "help/utils/files.go:IsDir", "help/utils/files.go:FileIsExisted"]}
{"id": "C153", "title": "Looking at a path with links", "statement": "IsDir, and PathExists with true, hold exactly if the path leads to a directory; PathExists reports nothing and no error exactly if FileIsExisted says no; FileExist and FileIsExisted differ exactly on links that lead nowhere and on directories not behind a link.", "quantifier": "all file systems with links, all paths", "why_tests_cant": "broken and circular links are rarely in test data", "anchors": ["help/utils/files.go:PathExists", "help/utils/files.go:FileExist", "help/utils/files.go:IsDir", "help/utils/files.go:IsFile", "help/utils/files.go:FileIsExisted"]}
{"id": "C154", "title": "Making directories with links", "statement": "MkDir and CreateDir leave all that exists as it was and add directories only; if they report success, all the paths lead to directories; without links and without a file on the way they succeed.", "quantifier": "all file systems with links, all paths, all lists of paths", "why_tests_cant": "the trees and chains of links are unboundedly many", "anchors": ["help/utils/files.go:MkDir", "help/utils/files.go:CreateDir"]}
{"id": "C155", "title": "Removing with links", "statement": "If q leads to a directory, DeLFile of q/e removes exactly the entry e of it with all below; a link is removed, not what it leads to; a failing call changes nothing.", "quantifier": "all file systems with links, all paths whose last element is a name, any trailing slashes", "why_tests_cant": "what must not change is the whole file system", "anchors": ["help/utils/files.go:DeLFile"]}
{"id": "C156", "title": "Copying with links", "statement": "CopyFile changes only the file to which the target leads, which begins with the content of the source afterwards; copying a file onto itself under whatever names changes nothing; a failing copy changes nothing but may leave an empty file.", "quantifier": "all file systems with links, all pairs of paths", "why_tests_cant": "what must not change is the whole file system", "anchors": ["help/utils/files.go:CopyFile"]}
{"id": "C157", "title": "Unpacking with links", "statement": "Unzip makes and removes no link; if the target leads to a directory with no link at or below it and no name has an element .., nothing outside that directory changes.", "quantifier": "all file systems with links, all targets, all archives", "why_tests_cant": "archives are chosen by an attacker", "anchors": ["help/utils/zip.go:Unzip"]}
{"id": "C158", "title": "Moving with links", "statement": "If FileMove with a target that is not empty succeeds, source and target, made absolute, name entries, and all that was at the source's is at the target's, links as they were, and (unless both are one) no longer at the source's; nothing else changes but directories made on the way. A failing call changes nothing but such directories.", "quantifier": "all file systems with links, all pairs of paths", "why_tests_cant": "what must not change is the whole file system", "anchors": ["help/utils/files.go:FileMove"]}
{"id": "C159", "title": "Scanning with links", "statement": "ScanDir of a path that leads to a directory (without or with one slash at the end, not the root) terminates whatever links there are, fails exactly if a directory below cannot be read, and else lists each file and each link below once, and nothing from behind a link.", "quantifier": "all file systems with links, all paths, all orders of the directories' entries", "why_tests_cant": "circular links make naive recursion endless; the trees are unboundedly many", "anchors": ["help/utils/files.go:ScanDir"]}
{"id": "C160", "title": "Sizes of a bloom filter in float64", "statement": "In float64 arithmetic too, for a math.Log accurate to a part in 2^50, New does not panic and chooses a multiple of 64 bits, at least as many as needed and less than 64 more, and the best number of probes rounded up, all up to a part in 2^48; so the estimated rate at capacity is, for rates up to one half, below twice the wanted one up to a part in 2^36.", "quantifier": "every capacity below 2^64, every float64 rate between 0 and 1 that needs at most 2^62 bits, every accurate math.Log", "why_tests_cant": "a statement about rounding for all capacities and all float64 rates; the case with too few bits is one in hundreds of millions", "anchors": ["common/filter/bloom/bloom.go:New"]}
{"id": "C161", "title": "The timing wheel when nobody is inside add as it turns", "statement": "If Run takes the buckets in order, and takes one only when no other goroutine is inside add, then however the goroutines are interrupted inside add otherwise: no task is started early, no goroutine inside add and not Run itself waits for the mutex of the bucket that Run is processing, and once there is nothing left to do no timer in a bucket has its expiration behind it.", "quantifier": "every interleaving at the steps of add, of any number of goroutines, Run and Stop, under the two conditions; every tick and wheel size", "why_tests_cant": "all interleavings of any number of goroutines; invariant over buckets, queue and program counters", "anchors": ["common/timer/timingwheel/timing_wheel.go:add", "common/timer/timingwheel/timing_wheel.go:Run", "common/timer/timingwheel/timing_wheel.go:addOrRun", "common/timer/timingwheel/bucket.go:flush"]}
{"id": "C162", "title": "64-bit times of the timing wheel", "statement": "The timing wheel does not suffer from the overflow of 64-bit times: whatever the expirations, it behaves as with unbounded numbers.", "quantifier": "every interleaving, tick, wheel size and expiration", "why_tests_cant": "needs expirations and intervals near 2^63; the equivalence is about all executions", "anchors": ["common/timer/timingwheel/timing_wheel.go:newTimingWheel", "common/timer/timingwheel/timing_wheel.go:add", "common/timer/timingwheel/timing_wheel.go:advance", "common/timer/timingwheel/timing_wheel.go:truncate", "common/timer/timingwheel/timing_wheel.go:setOverflowWheel"]}
{"id": "C163", "title": "The costs promised in the comments of the heaps", "statement": "Push, Pop, Remove and Fix of n elements make O(log n) calls of less and swap, and New is linear: Push at most log2(n+1) of each; Pop and Remove at most 2*log2(n-1) comparisons and log2(n-1)+1 swaps; Fix at most 2*log2 n and log2 n; New at most 2(n-1) comparisons and n-1 swaps; a HeapN of arity d at most 4 comparisons and one swap a level of the d-ary tree.", "quantifier": "every comparator (also one that is no order), every slice, value and index", "why_tests_cant": "a bound for all inputs and comparators", "anchors": ["common/container/heap/heap.go:New", "common/container/heap/heap.go:Push", "common/container/heap/heap.go:Pop", "common/container/heap/heap.go:Remove", "common/container/heap/heap.go:Fix", "common/container/heap/heapn.go:Push", "common/container/heap/heapn.go:Pop", "common/container/heap/heapn.go:Remove", "common/container/heap/heapn.go:Fix", "common/container/reap/reap.go:up", "common/container/reap/reap.go:down", "common/container/meap/maep.go:up", "common/container/meap/maep.go:down"]}
{"id": "C164", "title": "Growing an unbounded ring costs a constant per Push and at most doubles the memory", "statement": "Over every history of calls from New(s), growing moves in all no more elements than the final capacity. Without explicit calls of Grow it moves at most twice the elements pushed, and the capacity is at most s or at most twice the greatest length the queue ever had.", "quantifier": "every initial size up to 2^63-1 and every history of calls", "why_tests_cant": "an amortised bound over all histories", "anchors": ["common/container/ringbuffer/unbounded/unbounded.go:Push", "common/container/ringbuffer/unbounded/unbounded.go:MPush", "common/container/ringbuffer/unbounded/unbounded.go:Grow"]}
{"id": "C165", "title": "Files opened by the helpers are closed again, and few are open at a time", "statement": "FileMd5, ImageFileToBase64, ReadCsv, WriteCsv, CopyFile, BreakPointContinue, MakeFile, ZipFiles and Unzip have closed every file that they opened when they return, with or without an error, and need at most two descriptors at a time, whatever the number of files.", "quantifier": "every file system, limit of descriptors, set of open descriptors, input, and failure of the operating system", "why_tests_cant": "small archives and healthy disks do not come near the limit of descriptors; a leaked descriptor is not seen in the result", "anchors": ["help/utils/zip.go:Unzip", "help/utils/zip.go:ZipFiles", "help/utils/breakpoint_continue.go:makeFileContent", "help/utils/breakpoint_continue.go:BreakPointContinue", "help/utils/breakpoint_continue.go:MakeFile", "help/utils/files.go:CopyFile", "help/utils/files.go:FileMd5", "help/utils/csv.go:ReadCsv", "help/utils/csv.go:WriteCsv"]}
{"id": "C166", "title": "What the memory of a ring holds: an element that was popped is released", "statement": "An element that was popped is no longer referred to by the ring. (What holds instead: Pop, MPop, MPopCopy and Peek change no cell; the cells of a bounded ring are the last size elements it accepted since New or Reset, popped or not, up to rotation; Grow keeps the queued elements only; Reset releases all.)", "quantifier": "every size, element type and history of calls", "why_tests_cant": "references kept in dead cells are not visible through the interface; they show as memory that is never freed", "anchors": ["common/container/ringbuffer/fix/fix.go:Pop", "common/container/ringbuffer/fix/fix.go:MPop", "common/container/ringbuffer/fix/fix.go:Reset", "common/container/ringbuffer/round/roud.go:Pop", "common/container/ringbuffer/round/roud.go:Reset", "common/container/ringbuffer/unbounded/unbounded.go:Pop", "common/container/ringbuffer/unbounded/unbounded.go:Grow"]}
{"id": "C167", "title": "A linked list keeps exactly its elements alive", "statement": "Following pointers from a list one reaches the list and exactly the elements it contains; an element taken out by Remove points to nothing, and one that was cleared away reaches no other element.", "quantifier": "every legal history of calls on any number of lists, every list and element", "why_tests_cant": "reachability of removed nodes is invisible to the results of calls, and the claim is about all histories", "anchors": ["common/container/list/list.go:Remove", "common/container/list/list.go:remove", "common/container/list/list.go:move", "common/container/list/list.go:insert", "common/container/list/list.go:Clear", "common/container/list/list.go:PushBackList", "common/container/list/list.go:PushFrontList"]}
{"id": "C168", "title": "The queue of the timing wheel: push never blocks for ever and no wakeup is lost", "statement": "However goroutines are interrupted inside add, push and take: the mutex excludes, whoever sends on wakeup is met by a receiver, the mutex can always be released, the goroutine of channel gets to look at the queue whenever there is a bucket, and after a cancellation AfterFunc and Run still return.", "quantifier": "every wheel, every number of goroutines, every interleaving of their single steps, every moment of cancellation", "why_tests_cant": "the lost handshake needs a cancellation between two steps of other goroutines; afterwards nothing happens, which a test sees as a hang at most", "anchors": ["common/timer/timingwheel/delayqueue.go:push", "common/timer/timingwheel/delayqueue.go:take", "common/timer/timingwheel/delayqueue.go:channel", "common/timer/timingwheel/timing_wheel.go:Run", "common/timer/timingwheel/timing_wheel.go:add", "common/timer/timingwheel/timing_wheel.go:AfterFunc", "common/timer/timingwheel/bucket.go:flush"]}
{"id": "C169", "title": "The true rate of false positives of a bloom filter", "statement": "If the elements added, up to capacity, and the one asked for have independent, uniformly distributed hashes, the probability of a false positive is about the wanted rate (at most twice it, as the estimate of C135).", "quantifier": "every capacity, every rate, all seeds, all tuples of hashes", "why_tests_cant": "a count over all tuples of 64-bit hashes; the deviation depends on the size the filter happens to get", "anchors": ["common/filter/bloom/bloom.go:New", "common/filter/bloom/bloom.go:pos", "common/filter/bloom/bloom.go:Add", "common/filter/bloom/bloom.go:Contains"]}
{"id": "C170", "title": "RandStr returns fresh strings, and any string of the kind", "statement": "With the generator RandStr uses, math/rand seeded with the clock at each call: the string has the wanted size and kind, every string of that size and kind can be returned, and two calls return different strings.", "quantifier": "every time, size and kind, every table of the generator", "why_tests_cant": "the number of possible strings shows only over all times; a repetition needs two calls 2147483647 nanoseconds apart", "anchors": ["help/utils/rand.go:RandStr"]}
{"id": "C171", "title": "The timing wheel survives the clock being set", "statement": "The timing wheel reads the wall clock. Whenever that clock is set forward or back: no task is lost, doubled or started before its time.", "quantifier": "every interleaving, every sequence of clock settings", "why_tests_cant": "the clock would have to be set during a test, at every point of every interleaving", "anchors": ["common/timer/timingwheel/timing_wheel.go:Run", "common/timer/timingwheel/timing_wheel.go:AfterFunc", "common/timer/timingwheel/timing_wheel.go:ScheduleFunc", "common/timer/timingwheel/timing_wheel.go:add"]}
{"id": "C172", "title": "The sliding window when the clock is set", "statement": "The sliding window limiter reads the wall clock. Whenever that clock is set forward or back, at most limit calls are accepted within a window, and calls are rejected only if limit calls were accepted within the window before.", "quantifier": "every sequence of clock readings, every map order, every limit and window", "why_tests_cant": "the clock would have to be set between any two calls", "anchors": ["common/limiter/sliding_window/sliding_window.go:TryAcquire"]}
{"id": "C173", "title": "The sliding log when the clock is set", "statement": "The sliding log limiter reads the wall clock. Whenever that clock is set forward or back, every rule is kept: at most limit calls are accepted within its window.", "quantifier": "every sequence of clock readings, every map order, every configuration", "why_tests_cant": "the clock would have to be set between any two calls", "anchors": ["common/limiter/sliding_log/sliding_log.go:TryAcquire"]}
{"id": "C174", "title": "ScheduleFunc follows its scheduler", "statement": "However the goroutines are interrupted, the task of ScheduleFunc is started for the times its scheduler gives, one after the other from the first, none left out and none twice; a Stop ends the schedule.", "quantifier": "every scheduler, wheel and interleaving of the goroutines", "why_tests_cant": "the order of the goroutines and the scheduler are arbitrary; a Stop is lost only while the task is on its way", "anchors": ["common/timer/timingwheel/timing_wheel.go:ScheduleFunc", "common/timer/timingwheel/timing_wheel.go:addOrRun", "common/timer/timingwheel/bucket.go:Stop"]}
{"id": "C175", "title": "Chunks uploaded by several goroutines", "statement": "When chunks are uploaded by several goroutines at once (different chunks, or the same chunk again), a chunk that was uploaded with success holds the uploaded content; MakeFile then puts these contents together.", "quantifier": "every interleaving of any number of uploads, every split of the writes, every content", "why_tests_cant": "two uploads of one chunk must overlap between Create and the end of the write; the writes may be cut into pieces in any way", "anchors": ["help/utils/breakpoint_continue.go:BreakPointContinue", "help/utils/breakpoint_continue.go:makeFileContent", "help/utils/breakpoint_continue.go:MakeFile"]}
{"id": "C176", "title": "WriteCsv by several goroutines", "statement": "When several goroutines call WriteCsv for one file at once, the file keeps what it was, only whole rows are added, and every call that reports success has added its row.", "quantifier": "every interleaving of any number of calls, every content of the file before", "why_tests_cant": "the loss of a row needs two calls that overlap between Seek and Flush, and no error is reported", "anchors": ["help/utils/csv.go:WriteCsv"]}
{"id": "C177", "title": "Several channels on one delay queue", "statement": "When Channel is called several times on one delay queue, every entry goes to one reader only and once, each reader gets its entries in the order they were taken, and an entry that is due reaches a reader who waits, whatever the other readers do.", "quantifier": "every number of channels, every buffer size, every interleaving of the goroutines, readers and pushes", "why_tests_cant": "the loss of the wakeup needs one reader that stops while another goroutine sleeps, and then nothing ever arrives", "anchors": ["common/timer/delayqueue/delayqueue.go:Channel", "common/timer/delayqueue/delayqueue.go:Take", "common/timer/delayqueue/delayqueue.go:Push"]}
{"id": "C178", "title": "Run stopped and called again", "statement": "When the context of Run is cancelled and Run is called again on the same wheel, no timer is started twice, and every timer that was pending when the first call returned is started by the second one when it is due.", "quantifier": "every tick, size and time of creation, any number of calls of Run one after the other, every interleaving of the callers, the tasks, the present and the former goroutines of the queue", "why_tests_cant": "what is lost depends on which case select picks and on what the former goroutine still takes after Run has returned", "anchors": ["common/timer/timingwheel/timing_wheel.go:Run", "common/timer/timingwheel/delayqueue.go:channel", "common/timer/timingwheel/delayqueue.go:take"]}
{"id": "C179", "title": "What the memory of a heap holds", "statement": "An element that was taken out of a heap is no longer referred to by the heap, and the array of a heap holds nothing but elements of the heap and zero values.", "quantifier": "every element type and order, every array with spare capacity, every history of Push, Pop, Peek and Remove, every growth policy of append", "why_tests_cant": "what an array holds behind the length of a slice is not visible through the interface; it shows as memory that is never released", "anchors": ["common/container/heap/heap.go:Pop", "common/container/heap/heap.go:Remove", "common/container/heap/heap.go:Push", "common/container/pqueue/pqueue.go:Pop"]}
{"id": "C180", "title": "Several calls of MakeFile with one file name", "statement": "When calls of MakeFile for one file name overlap, every call that reports success leaves its upload, whole and in order, in the file at the path.", "quantifier": "any number of calls with any chunks (of one upload or of several), every order of their calls of the operating system, every split of the writes, every failure of open, write and remove, with or without a file there before", "why_tests_cant": "it depends on how calls interleave and on failures of the operating system in between; a test sees a few of the orders", "anchors": ["help/utils/breakpoint_continue.go:MakeFile"]}
{"id": "C181", "title": "Several calls of CopyFile at a time", "statement": "When calls of CopyFile overlap, a call that reports success leaves its source in the destination, as if it were the only call, and nothing else in the file than what was copied or there before.", "quantifier": "any number of calls between any files (also in chains, in circles and from a file to itself), every order of reads and writes, every size of the pieces, every failure", "why_tests_cant": "it depends on how reads and writes of several calls interleave; a test sees a few orders and usually one size of the pieces", "anchors": ["help/utils/files.go:CopyFile"]}
{"id": "C182", "title": "Several calls of FileMove at a time", "statement": "When calls of FileMove overlap, of the calls with one source only one succeeds, no file gets lost, and a call that reports success leaves its file at the destination.", "quantifier": "any number of calls between any paths, every order of their steps, every answer of the operating system", "why_tests_cant": "it depends on how the steps of several calls interleave; a test sees a few orders", "anchors": ["help/utils/files.go:FileMove"]}
{"id": "C183", "title": "MakeFile while chunks are uploaded and removed", "statement": "If MakeFile reports success, the file it made has all chunks of the upload, each whole and in order, also if chunks are uploaded, uploaded again or removed while it runs.", "quantifier": "any number of chunks with any contents, every order of the steps of MakeFile, of uploads, retries and removals, every size of the pieces read and stored, every failure", "why_tests_cant": "it depends on how the steps of several goroutines interleave; a test sees a few orders", "anchors": ["help/utils/breakpoint_continue.go:MakeFile", "help/utils/breakpoint_continue.go:RemoveChunk", "help/utils/breakpoint_continue.go:BreakPointContinue"]}
{"id": "C184", "title": "Several calls of Run at a time", "statement": "A timing wheel on which Run is called several times keeps its guarantees: no timer is lost or started twice, two calls never empty one bucket at a time, no timer starts early, and each call gets to the end of every bucket it receives.", "quantifier": "any number of calls of Run at any times, any timers with any delays, stops and repeated schedules, every order of the steps of the calls and of the clock, every tick > 0 and wheel size > 1", "why_tests_cant": "it depends on how the steps of several goroutines interleave; the failures need a bucket overtaken in a channel", "anchors": ["common/timer/timingwheel/timing_wheel.go:Run", "common/timer/timingwheel/bucket.go:flush", "common/timer/timingwheel/timing_wheel.go:add"]}
{"id": "C185", "title": "RandStr called by several goroutines", "statement": "A call of RandStr returns a string of the wanted size and kind, the one its own time determines, whatever other goroutines do with the common source.", "quantifier": "any number of calls with any sizes and kinds, every order of seeding and drawing, other users of the source, every table of the generator", "why_tests_cant": "it depends on how the goroutines take turns at the lock of the source; a test with random outcomes sees nothing strange", "anchors": ["help/utils/rand.go:RandStr"]}
{"id": "C186", "title": "Log2 of a float64", "statement": "Log2 of a positive float64 is its logarithm up to a few last places, exact for powers of two and increasing; zero, negative numbers, infinities and NaN give what mathematics or IEEE 754 wants.", "quantifier": "every float64, normal and subnormal, every implementation of math.Log of the stated accuracy", "why_tests_cant": "there are 2^64 arguments, and the errors lie next to 1 and next to powers of two", "anchors": ["common/math/math.go:Log2"]}
{"id": "C187", "title": "What the arrays of Reap and Meap keep alive", "statement": "An entry that was popped or removed is no longer referred to by the container; the array holds nothing but entries of the container and zero values.", "quantifier": "every element, key and value type, every comparator, every history of calls, every growth policy of append", "why_tests_cant": "what an array holds behind the length of a slice cannot be seen through the interface; it shows as memory that is never released", "anchors": ["common/container/reap/reap.go:Remove", "common/container/reap/reap.go:Pop", "common/container/meap/maep.go:Remove", "common/container/meap/maep.go:Pop"]}
{"id": "C188", "title": "Round keeps the order of numbers", "statement": "If f <= g then Round(f, n) <= Round(g, n), also for negative and infinite numbers and where the result overflows; with no decimals the result is a whole number less than 3/2 away from f.", "quantifier": "all float64 f and g that are not NaN, every n from -308 to 308 (outside all finite numbers have one result); for the second part every finite float64", "why_tests_cant": "four operations round one after the other; a reversed pair would be two neighbours among 2^64 numbers", "anchors": ["help/utils/math.go:Round"]}
{"id": "C189", "title": "Log2 of a float32 is exact for powers of two and accurate everywhere", "statement": "Log2(2^e) is e for every power of two a float32 holds; NaN, infinities, zero and negative numbers give what math.Log2 documents; the order is kept; the result differs from the logarithm by at most a part in 2^23 of it, next to 1 too, so it is zero for 1 only and has the right sign.", "quantifier": "all float32 values; order under a math.Log that keeps the order of fractions, accuracy under one that is right up to a part in 2^50", "why_tests_cant": "for float64 the same claim is wrong next to 1; that no float32 is hit takes an argument about the distance of all 2^32 values from 1 and two roundings", "anchors": ["common/math/math.go:Log2"]}
{"id": "C190", "title": "When Round returns minus zero", "statement": "Round(f, n) has the sign bit exactly if f < -c, where c is 0.5/10^n as computed (right up to a part in 2^49); with no decimals the result is -0, printed as -0, exactly for the numbers between -1.5 and -0.5; numbers from zero on, -0 included, give a result without the sign; but for the sign of zero the result is that of C133. For every n the numbers from -1.25 to -0.75 units of the last decimal become -0.", "quantifier": "all finite float64 f, zeros of both signs, every n from -290 to 290", "why_tests_cant": "0 == -0 in Go, so a comparison with an expected value cannot see the sign of a zero", "anchors": ["help/utils/math.go:Round"]}
{"id": "C191", "title": "Max, Min and Abs of a float32", "statement": "Of two numbers Max and Min return one, the largest and the smallest, and with a NaN among them the second argument; Abs returns the absolute value and changes no bit but the sign, which stays for -0 and NaN; every float32 is a float64, and converting first and calling there gives the same number. The bit patterns stand for exactly the numbers with 24 places, none below 2^-149, that are below 2^128.", "quantifier": "all pairs of 32-bit patterns: numbers, subnormal numbers, zeros of both signs, infinities, NaN", "why_tests_cant": "there are 2^64 pairs of arguments; the special ones are easy to leave out", "anchors": ["common/math/math.go:Max", "common/math/math.go:Min", "common/math/math.go:Abs"]}
{"id": "C192", "title": "ShellExec with commands that read stdin or span several lines", "statement": "Each command is executed where the one before has stopped reading, the shell ends if its commands do, the result is that of the last command executed, and it is that of C124 if nobody reads; commands get no input but what the caller wrote.", "quantifier": "every shell whose commands take any part of the text behind them, every text", "why_tests_cant": "all texts and all ways in which commands may read", "anchors": ["help/utils/cmd.go:ShellExec"]}
{"id": "C193", "title": "Sets of floating point numbers", "statement": "In a Set[float64] NaN is never contained, and a number exactly if the last call about that number was an Add, the zeros being one number; Len is the number of numbers contained plus the number of Adds of a NaN; what was added can be removed.", "quantifier": "every history of Add and Remove with any bit patterns; membership and length for every symmetric and transitive ==", "why_tests_cant": "all histories; NaN is easy to leave out", "anchors": ["common/container/set/set.go:Add", "common/container/set/set.go:Remove", "common/container/set/set.go:Contains", "common/container/set/set.go:Len", "common/container/set/set.go:Empty"]}
{"id": "C194", "title": "Heaps of floating point numbers", "statement": "A heap of float64 ordered by < returns its elements in ascending order, and Peek the least; a NaN among them does not hide smaller numbers.", "quantifier": "all lists of bit patterns, every history", "why_tests_cant": "all contents; NaN is easy to leave out, and what it does depends on where it is in the heap", "anchors": ["common/container/heap/heap.go:New", "common/container/heap/heap.go:Pop", "common/container/heap/heap.go:Peek"]}
{"id": "C195", "title": "The token bucket grants its rate", "statement": "If a call of TokenBucketLimiter.TryAcquire is rejected, and the bucket is large enough for all tokens so far, then before it at least rate calls per second since the creation were accepted, not counting the last second.", "quantifier": "all rates and capacities for which the tokens fit into an int, all histories of call times", "why_tests_cant": "all histories; the tokens lost depend on when the calls come within the second, tests call at whole seconds", "anchors": ["common/limiter/token_bucket/token_bucket.go:TryAcquire", "common/limiter/token_bucket/token_bucket.go:NewTokenBucketLimiter"]}
