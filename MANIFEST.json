{
 "claims": [
  {
   "property": "C01",
   "status": "proved",
   "theorems": [
    "Verif.Math.C01_isPowOf2_iff"
   ],
   "note": "For every bit width and argument."
  },
  {
   "property": "C02",
   "status": "proved",
   "theorems": [
    "Verif.Math.C02_roundUp_least",
    "Verif.Math.C02_roundUp_unrepresentable"
   ],
   "note": "Representable case gives the least power of two; the unrepresentable case (argument above 2^(w-1)) is characterised separately: result 0."
  },
  {
   "property": "C03",
   "status": "proved",
   "theorems": [
    "Verif.Math.C03_roundDown_greatest",
    "Verif.Math.C03_roundDown_zero"
   ],
   "note": "Including the value at 0."
  },
  {
   "property": "C04",
   "status": "proved",
   "theorems": [
    "Verif.Math.C04_findLastBitSet",
    "Verif.Math.C04_documented_values"
   ],
   "note": ""
  },
  {
   "property": "C05",
   "status": "proved",
   "theorems": [
    "Verif.Math.C05_split_covers",
    "Verif.Math.C05_split_panics_iff",
    "Verif.Math.C05_exactly_m_parts_refuted"
   ],
   "note": "Contiguous exact cover with part sizes differing as computed, and panics characterised; the stronger reading 'exactly m parts' is refuted by a theorem."
  },
  {
   "property": "C06",
   "status": "proved",
   "theorems": [
    "Verif.Math.C06_max",
    "Verif.Math.C06_min",
    "Verif.Math.C06_abs",
    "Verif.Math.C06_abs_intMin"
   ],
   "note": "Max/Min for any total order; Abs including the wrap-around at the minimum integer."
  },
  {
   "property": "C07",
   "status": "proved",
   "theorems": [
    "Verif.Heap.C07_heap_refines_priority_queue",
    "Verif.Heap.C07_peek_is_minimum"
   ],
   "note": "Any sequence of New/Push/Pop/Peek/Remove/Fix on the list heap refines the priority-queue specification, for any strict weak order."
  },
  {
   "property": "C08",
   "status": "proved",
   "theorems": [
    "Verif.Heap.C08_heap_conserves",
    "Verif.Heap.C08_remove_returns_index",
    "Verif.Heap.C08_len"
   ],
   "note": "Conservation of the multiset, Remove returns the element at the index, Len."
  },
  {
   "property": "C09",
   "status": "proved",
   "theorems": [
    "Verif.Heap.C09_drain_sorts"
   ],
   "note": "New followed by popping everything yields a sorted permutation of the input."
  },
  {
   "property": "C10",
   "status": "proved",
   "theorems": [
    "Verif.Heap.C10_new_push_never_panic",
    "Verif.Heap.C10_pop_peek_panic_iff_empty",
    "Verif.Heap.C10_remove_panic_iff_out_of_range",
    "Verif.Heap.C10_fix_panic_iff"
   ],
   "note": "Exact panic conditions of every operation."
  },
  {
   "property": "C11",
   "status": "partial",
   "theorems": [
    "Verif.Heap.C11_arity4_partial",
    "Verif.Heap.C11_arity3_pushPop_partial",
    "Verif.Heap.C11_arity2_refuted",
    "Verif.Heap.C11_arity3_refuted",
    "Verif.Heap.C11_arity_ge5_refuted"
   ],
   "note": "The claim as written is false of the code: downN compares a window of four children whatever the arity. Proved for arity 4 (all operations) and for arity 3 with Push/Pop only; refuted for arity 2, arity 3 with Fix/Remove and every arity >= 5."
  },
  {
   "property": "C12",
   "status": "proved",
   "theorems": [
    "Verif.Heap.C12_heapN_conserves",
    "Verif.Heap.C12_heapN_never_panics",
    "Verif.Heap.C12_newN_panics_iff"
   ],
   "note": "Conservation and absence of panics for every arity >= 2; NewN panics iff n < 2."
  },
  {
   "property": "C13",
   "status": "proved",
   "theorems": [
    "Verif.Reap.C13_handles_stay_valid",
    "Verif.Reap.C13_never_panics",
    "Verif.Reap.C13_len_and_value"
   ],
   "note": "Handles stay valid, dead handles return false; entries handed to a reap they do not belong to are outside the model's client language."
  },
  {
   "property": "C14",
   "status": "proved",
   "theorems": [
    "Verif.Reap.C14_min",
    "Verif.Reap.C14_peek_min"
   ],
   "note": ""
  },
  {
   "property": "C15",
   "status": "proved",
   "theorems": [
    "Verif.Meap.C15_meap_is_map",
    "Verif.Meap.C15_never_panics"
   ],
   "note": ""
  },
  {
   "property": "C16",
   "status": "proved",
   "theorems": [
    "Verif.Meap.C16_min"
   ],
   "note": ""
  },
  {
   "property": "C17",
   "status": "proved",
   "theorems": [
    "Verif.Heap.C17_pqueue",
    "Verif.Heap.C17_pqueue_total"
   ],
   "note": "pqueue is the list heap behind a struct."
  },
  {
   "property": "C18",
   "status": "partial",
   "theorems": [
    "Verif.Ring.C18_fix_fifo_partial"
   ],
   "note": "For sizes dividing 2^64 every history; for other sizes histories that accept fewer than 2^64 elements (C22 shows this bound is needed)."
  },
  {
   "property": "C19",
   "status": "proved",
   "theorems": [
    "Verif.Ring.C19_round_fifo_forever"
   ],
   "note": ""
  },
  {
   "property": "C20",
   "status": "partial",
   "theorems": [
    "Verif.Ring.C20_unbounded_fifo_partial",
    "Verif.Ring.C20_never_too_large",
    "Verif.Ring.C20_capacity",
    "Verif.Ring.C20_size_zero_refuted"
   ],
   "note": "Holds while fewer than 2^64 elements have been pushed in total (C22 shows why) and the initial size is positive; with New(0) MPopCopy divides by zero, see C20_size_zero_refuted."
  },
  {
   "property": "C21",
   "status": "proved",
   "theorems": [
    "Verif.Ring.C21_fix_bulk",
    "Verif.Ring.C21_round_bulk"
   ],
   "note": ""
  },
  {
   "property": "C22",
   "status": "partial",
   "theorems": [
    "Verif.Ring.C22_fix_wrap_iff",
    "Verif.Ring.C22_unbounded_wrap_refuted"
   ],
   "note": "Fixed ring: survives counter wrap exactly when the size divides 2^64 (proved iff). Unbounded ring: false for other sizes, counterexample proved."
  },
  {
   "property": "C23",
   "status": "partial",
   "theorems": [
    "Verif.RingSPSC.C23_push_pop_refuted",
    "Verif.RingSPSC.C23_pop_overwritten_refuted",
    "Verif.RingSPSC.C23_mpush_panic_refuted",
    "Verif.RingSPSC.C23_bulk_partial",
    "Verif.RingSPSC.C23_bulk_unread_partial",
    "Verif.RingSPSC.C23_counters",
    "Verif.RingSPSC.C23_values"
   ],
   "note": "Push/Pop publish the counter before the cell is written/read, so the claim is false for them (two counterexample executions); MPush can panic. The bulk operations are proved prefix-correct for every interleaving under sequential consistency. For every client and every interleaving: the counters stay in order (never more obtained than given, never more than size between them, C23_counters), and every value obtained is the zero value, was given or is being copied by MPush (C23_values)."
  },
  {
   "property": "C24",
   "status": "partial",
   "theorems": [
    "Verif.Ring.C24_fix_new",
    "Verif.Ring.C24_unbounded_new",
    "Verif.Ring.C24_round_new_partial",
    "Verif.Ring.C24_round_huge_refuted"
   ],
   "note": "Sizes above 2^63 round to capacity 0 in the rounded ring (counterexample proved); all other sizes proved."
  },
  {
   "property": "C25",
   "status": "proved",
   "theorems": [
    "Verif.LinkedList.C25_refines_sequences",
    "Verif.LinkedList.C25_spec_meaning"
   ],
   "note": "Also covers RemoveFront/RemoveBack/PushBackList/PushFrontList/Clear/Front/Back/Next/Prev/Len/Empty. Histories may not use elements that were in a list when it was cleared (C28)."
  },
  {
   "property": "C26",
   "status": "proved",
   "theorems": [
    "Verif.LinkedList.C26_non_member"
   ],
   "note": "Memory is literally unchanged. Elements of a cleared list are excluded (C28)."
  },
  {
   "property": "C27",
   "status": "proved",
   "theorems": [
    "Verif.LinkedList.C27_push_list"
   ],
   "note": ""
  },
  {
   "property": "C28",
   "status": "partial",
   "theorems": [
    "Verif.LinkedList.C28_clear_partial",
    "Verif.LinkedList.C28_stale_handle_refuted"
   ],
   "note": "False for handles obtained before Clear (C28_stale_handle_refuted): Clear does not reset e.list. Proved: Clear empties, and the list only ever holds later elements if old handles are not used."
  },
  {
   "property": "C29",
   "status": "proved",
   "theorems": [
    "Verif.LinkedList.C29_deque"
   ],
   "note": ""
  },
  {
   "property": "C30",
   "status": "proved",
   "theorems": [
    "Verif.LinkedList.C30_stack"
   ],
   "note": ""
  },
  {
   "property": "C31",
   "status": "proved",
   "theorems": [
    "Verif.GoSet.C31_contains",
    "Verif.GoSet.C31_len",
    "Verif.GoSet.C31_card",
    "Verif.GoSet.C31_nan_refuted"
   ],
   "note": "Go maps are modelled as key lists; C31_nan_refuted shows why reflexive equality is needed."
  },
  {
   "property": "C32",
   "status": "proved",
   "theorems": [
    "Verif.Limiter.Fixed.C32_per_window"
   ],
   "note": ""
  },
  {
   "property": "C33",
   "status": "proved",
   "theorems": [
    "Verif.Limiter.Fixed.C33_any_interval",
    "Verif.Limiter.Fixed.C33_limit_refuted"
   ],
   "note": "2*limit proved; the stronger bound limit is refuted (C33_limit_refuted)."
  },
  {
   "property": "C34",
   "status": "proved",
   "theorems": [
    "Verif.Limiter.Fixed.C34_no_spurious"
   ],
   "note": ""
  },
  {
   "property": "C35",
   "status": "proved",
   "theorems": [
    "Verif.Limiter.Leaky.C35_burst_and_rate"
   ],
   "note": "Hypothesis: peak and velocity times elapsed seconds fit in 64 bits (otherwise C36_overflow_refuted)."
  },
  {
   "property": "C36",
   "status": "proved",
   "theorems": [
    "Verif.Limiter.Leaky.C36_level_range",
    "Verif.Limiter.Leaky.C36_reject_only_full",
    "Verif.Limiter.Leaky.C36_recovers",
    "Verif.Limiter.Leaky.C36_overflow_refuted"
   ],
   "note": "Same no-overflow hypothesis as C35; C36_overflow_refuted shows it is needed."
  },
  {
   "property": "C37",
   "status": "proved",
   "theorems": [
    "Verif.Limiter.Token.C37_burst_and_rate",
    "Verif.Limiter.Token.C37_tokens_range",
    "Verif.Limiter.Token.C37_negative_capacity_refuted"
   ],
   "note": "Hypothesis Fits (tokens issued fit in 64 bits) and capacity >= 0; both shown necessary by counterexamples."
  },
  {
   "property": "C38",
   "status": "proved",
   "theorems": [
    "Verif.Limiter.Token.C38_total",
    "Verif.Limiter.Token.C38_first_second",
    "Verif.Limiter.Token.C38_overflow_refuted"
   ],
   "note": "Same hypothesis as C37; C38_overflow_refuted shows it is needed."
  },
  {
   "property": "C39",
   "status": "proved",
   "theorems": [
    "Verif.Limiter.Window.C39_exact",
    "Verif.Limiter.Window.C39_new",
    "Verif.Limiter.Window.C39_aligned",
    "Verif.Limiter.Window.C39_any_interval",
    "Verif.Limiter.Window.C39_full_length_refuted",
    "Verif.Limiter.Window.C39_zero_window_refuted"
   ],
   "note": "The limiter equals the specification; bounds for aligned and short intervals follow; the bound for arbitrary intervals of full length is refuted."
  },
  {
   "property": "C40",
   "status": "proved",
   "theorems": [
    "Verif.Limiter.Window.C40_size",
    "Verif.Limiter.Window.C40_no_spurious"
   ],
   "note": ""
  },
  {
   "property": "C41",
   "status": "proved",
   "theorems": [
    "Verif.Limiter.Log.C41_every_rule"
   ],
   "note": "Every iteration order of the map is covered."
  },
  {
   "property": "C42",
   "status": "proved",
   "theorems": [
    "Verif.Limiter.Log.C42_succeeds",
    "Verif.Limiter.Log.C42_reports"
   ],
   "note": ""
  },
  {
   "property": "C43",
   "status": "proved",
   "theorems": [
    "Verif.Limiter.Log.C43_sorts",
    "Verif.Limiter.Log.C43_new",
    "Verif.Limiter.Log.C43_order"
   ],
   "note": "The constructor sorts with an arbitrary correct sort (sort.Slice is not stable)."
  },
  {
   "property": "C44",
   "status": "partial",
   "theorems": [
    "Verif.Limiter.Log.C44_independent_partial",
    "Verif.Limiter.Log.C44_independent_refuted"
   ],
   "note": "False as stated (C44_independent_refuted): strategies are pointers, a later constructor with another small window rewrites them. Proved to hold when the small windows agree or the objects are distinct."
  },
  {
   "property": "C45",
   "status": "proved",
   "theorems": [
    "Verif.Limiter.Fixed.C45_fixed",
    "Verif.Limiter.Fixed.C45_fixed_bound",
    "Verif.Limiter.Leaky.C45_leaky",
    "Verif.Limiter.Token.C45_token",
    "Verif.Limiter.Window.C45_window",
    "Verif.Limiter.Log.C45_log"
   ],
   "note": "Mutex machine with one action per statement, any number of goroutines, every interleaving; sync.Mutex itself is trusted. The clock does not run backwards. For the sliding log the strategy objects are not changed concurrently."
  },
  {
   "property": "C46",
   "status": "proved",
   "theorems": [
    "Verif.Bloom.C46_no_false_negative",
    "Verif.Bloom.C46_bytes"
   ],
   "note": "Any filter with 0 < bits ≤ 2^64-64, any seeds, any sequence of operations; byte and string forms go through the modelled hash."
  },
  {
   "property": "C47",
   "status": "proved",
   "theorems": [
    "Verif.Bloom.C47_as_new",
    "Verif.Bloom.C47_empty",
    "Verif.Bloom.C47_no_seeds_refuted"
   ],
   "note": "With zero seeds Contains is always true, also after Clear (C47_no_seeds_refuted): that is why the statement asks for a seed."
  },
  {
   "property": "C48",
   "status": "proved",
   "theorems": [
    "Verif.Bloom.C48_exact",
    "Verif.Bloom.C48_set",
    "Verif.Bloom.C48_mono",
    "Verif.Bloom.C48_power_of_two"
   ],
   "note": "Exact characterisation of Contains by the set of added hashes. C48_power_of_two: with a power-of-two bit count all probes depend only on the hash modulo the bit count, so the number of seeds does not help."
  },
  {
   "property": "C49",
   "status": "proved",
   "theorems": [
    "Verif.Bloom.C49_total",
    "Verif.Bloom.C49_untouched",
    "Verif.Bloom.C49_zero_refuted",
    "Verif.Bloom.C49_overflow_refuted"
   ],
   "note": "For 0 < bits ≤ 2^64-64; bits = 0 panics with a division by zero (C49_zero_refuted); above the bound the rounding overflows to 0 (C49_overflow_refuted)."
  },
  {
   "property": "C50",
   "status": "proved",
   "theorems": [
    "Verif.Hash.C50_history_independent",
    "Verif.Hash.C50_zero_value_refuted"
   ],
   "note": "hash/maphash is a parameter (an arbitrary function of seed and bytes); the zero Hash value panics on nil (C50_zero_value_refuted)."
  },
  {
   "property": "C51",
   "status": "proved",
   "theorems": [
    "Verif.DelayQueue.C51_not_early",
    "Verif.DelayQueue.C51_least"
   ],
   "note": "Machine with one action per statement; any number of goroutines, any interleaving, cancellation included; the clock does not run backwards."
  },
  {
   "property": "C52",
   "status": "proved",
   "theorems": [
    "Verif.DelayQueue.C52_conserved",
    "Verif.DelayQueue.C52_exclusion"
   ],
   "note": "Same machine. Entries have identities, so duplicates of equal values are told apart."
  },
  {
   "property": "C53",
   "status": "partial",
   "theorems": [
    "Verif.DelayQueue.C53_awake",
    "Verif.DelayQueue.C53_quiet",
    "Verif.DelayQueue.C53_delivers",
    "Verif.DelayQueue.C53_several_refuted"
   ],
   "note": "Proved for one consumer without cancellation: invariant, and the delivery is reachable without time passing. Refuted for two consumers (C53_several_refuted): a consumer sleeps forever although entries expire."
  },
  {
   "property": "C54",
   "status": "partial",
   "theorems": [
    "Verif.DelayQueue.C54_receiver",
    "Verif.DelayQueue.C54_gets_through",
    "Verif.DelayQueue.C54_released",
    "Verif.DelayQueue.C54_cancel_refuted"
   ],
   "note": "Proved for any number of consumers without cancellation: a sender always has a receiver, and from every reachable state the mutex can be released. Refuted with a cancelled Take (C54_cancel_refuted): Push blocks forever holding the mutex."
  },
  {
   "property": "C55",
   "status": "proved",
   "theorems": [
    "Verif.DelayQueue.C55_pop",
    "Verif.DelayQueue.C55_peek",
    "Verif.DelayQueue.C55_empty"
   ],
   "note": "In every reachable state of the machine."
  },
  {
   "property": "C56",
   "status": "proved",
   "theorems": [
    "Verif.TimingWheel.C56_add",
    "Verif.TimingWheel.C56_levels"
   ],
   "note": "For every reachable state of the machine (any interleaving), every timer, tick >= 1, size >= 2; int64 is unbounded. One call of add is one step here; C140 interrupts it."
  },
  {
   "property": "C57",
   "status": "partial",
   "theorems": [
    "Verif.TimingWheel.C57_not_early",
    "Verif.TimingWheel.C57_one",
    "Verif.TimingWheel.C57_kept",
    "Verif.TimingWheel.C57_refuted"
   ],
   "note": "Proved for executions in which Run processes buckets in order of expiration (guard inOrder). Refuted in general (C57_refuted): with due buckets waiting in the channel a task is started more than a tick early. One call of add is one step here; C140 interrupts it."
  },
  {
   "property": "C58",
   "status": "proved",
   "theorems": [
    "Verif.TimingWheel.C58_conserved",
    "Verif.TimingWheel.C58_one_bucket",
    "Verif.TimingWheel.C58_registered",
    "Verif.TimingWheel.C58_at_most_once",
    "Verif.TimingWheel.C58_registered_once"
   ],
   "note": "Every interleaving, including out of order processing. Between unlinking and re-adding in flush a timer is in Run's hand instead of in a bucket. One call of add is one step here; C140 interrupts it."
  },
  {
   "property": "C59",
   "status": "proved",
   "theorems": [
    "Verif.TimingWheel.C59_stopped",
    "Verif.TimingWheel.C59_never_both",
    "Verif.TimingWheel.C59_started",
    "Verif.TimingWheel.C59_limbo"
   ],
   "note": "Every interleaving. C59_limbo shows that Stop may return false although the task has not been started. One call of add is one step here; C140 interrupts it."
  },
  {
   "property": "C60",
   "status": "partial",
   "theorems": [
    "Verif.TimingWheel.C60_accepted",
    "Verif.TimingWheel.C60_ends",
    "Verif.TimingWheel.C60_delivers_partial",
    "Verif.TimingWheel.C60_dropped",
    "Verif.TimingWheel.C60_refuted",
    "Verif.TimingWheel.C60_zero_refuted"
   ],
   "note": "Proved: a delay >= tick is accepted, and once Run and the queue goroutine have nothing left to do (which always happens) every expired pending timer has been started exactly once; in-order executions, the queue goroutine takes a bucket when Run waits. Refuted for delays below a tick (C60_refuted). One call of add is one step here; C140 interrupts it."
  },
  {
   "property": "C61",
   "status": "partial",
   "theorems": [
    "Verif.TimingWheel.Cancel.C61_can_return",
    "Verif.TimingWheel.Cancel.C61_not_before",
    "Verif.TimingWheel.Cancel.C61_refuted",
    "Verif.TimingWheel.Cancel.C61_buffer",
    "Verif.TimingWheel.Cancel.C61_leak_refuted"
   ],
   "note": "Refuted: Run may panic on the nil bucket received from the closed channel (C61_refuted), the queue goroutine may leak (C61_leak_refuted), and Run may block for ever while it moves timers (C168_run_refuted, in the model with the queue's protocol). Proved: in the select Run can return after the cancellation, and it neither returns nor panics before. At most ten buckets wait in the channel (C61_buffer)."
  },
  {
   "property": "C62",
   "status": "proved",
   "theorems": [
    "Verif.TimingWheel.C62_ends",
    "Verif.TimingWheel.C62_size_one_refuted",
    "Verif.TimingWheel.C62_size_one_new_refuted",
    "Verif.TimingWheel.C62_size_zero",
    "Verif.TimingWheel.C62_new_panics"
   ],
   "note": "size >= 2. For size 1 add never ends (C62_size_one_refuted), size 0 panics, tick 0 and negative sizes make New panic."
  },
  {
   "property": "C63",
   "status": "partial",
   "theorems": [
    "Verif.TimingWheel.C63_no_deadlock",
    "Verif.TimingWheel.C63_lower",
    "Verif.TimingWheel.C63_goes_on",
    "Verif.TimingWheel.C63_refuted"
   ],
   "note": "Proved for in-order executions. Refuted in general (C63_refuted): flush can block for ever on the mutex it holds. One call of add is one step here; C140 interrupts it."
  },
  {
   "property": "C64",
   "status": "proved",
   "theorems": [
    "Verif.Gorm.C64_sent",
    "Verif.Gorm.C64_stops",
    "Verif.Gorm.C64_example",
    "Verif.Gorm.C64_empty_refuted"
   ],
   "note": "Batches and failure points for every database and order; also shown: a first record without fields makes the call succeed without inserting anything."
  },
  {
   "property": "C65",
   "status": "proved",
   "theorems": [
    "Verif.Gorm.C65_limit",
    "Verif.Gorm.C65_mixed_refuted"
   ],
   "note": "For every outcome of the call; also shown: with records of different field counts the limit is exceeded (130000 values)."
  },
  {
   "property": "C66",
   "status": "partial",
   "theorems": [
    "Verif.Gorm.C66_terminates",
    "Verif.Gorm.C66_refuted",
    "Verif.Gorm.C66_refuted_example"
   ],
   "note": "Proved for up to 65000 fields in the first record; refuted above: the loop never ends."
  },
  {
   "property": "C67",
   "status": "proved",
   "theorems": [
    "Verif.Gorm.C67_aligned",
    "Verif.Gorm.C67_empty",
    "Verif.Gorm.C67_result",
    "Verif.Gorm.C67_ragged"
   ],
   "note": "Placement of every value for every iteration order; result reported; ragged records shown by example."
  },
  {
   "property": "C68",
   "status": "proved",
   "theorems": [
    "Verif.Gorm.C68_batches",
    "Verif.Gorm.C68_run"
   ],
   "note": "Partition, bounds and the run over the batches with the first failure, for every order and database."
  },
  {
   "property": "C69",
   "status": "proved",
   "theorems": [
    "Verif.Gorm.C69_sets",
    "Verif.Gorm.C69_lacks",
    "Verif.Gorm.C69_order_refuted",
    "Verif.Gorm.C69_no_fields_refuted",
    "Verif.Gorm.C69_example"
   ],
   "note": "Meaning of the statement as an update of a table (column id itself not set); failure without sending; also shown: with different field sets the outcome depends on map order, and an item without fields yields an invalid statement."
  },
  {
   "property": "C70",
   "status": "proved",
   "theorems": [
    "Verif.Base64.C70_alphabet",
    "Verif.Base64.C70_no_error",
    "Verif.Base64.C70_roundtrip",
    "Verif.Base64.C70_injective",
    "Verif.Base64.C70_shape",
    "Verif.Base64.C70_newlines",
    "Verif.Base64.C70_malformed"
   ],
   "note": "StdEncoding encoder and decoder modelled. Malformed text: the error is dropped (C70_malformed)."
  },
  {
   "property": "C71",
   "status": "proved",
   "theorems": [
    "Verif.Strconv.C71_numeral",
    "Verif.Strconv.C71_roundtrip",
    "Verif.Strconv.C71_injective",
    "Verif.Strconv.C71_no_leading_zero"
   ],
   "note": "strconv formatting and both parsing paths modelled."
  },
  {
   "property": "C72",
   "status": "partial",
   "theorems": [
    "Verif.Strconv.C72_numeral",
    "Verif.Strconv.C72_invalid_partial",
    "Verif.Strconv.C72_invalid_exact",
    "Verif.Strconv.C72_invalid_refuted"
   ],
   "note": "Saturation proved for every numeral (C72_numeral). Invalid strings: 0 exactly if the digits before the first bad character fit into 64 bits (C72_invalid_exact); refuted for twenty nines followed by a letter."
  },
  {
   "property": "C73",
   "status": "proved",
   "theorems": [
    "Verif.Aes.C73_roundtrip",
    "Verif.Aes.C73_injective",
    "Verif.Aes.C73_bad_key"
   ],
   "note": "For every block cipher whose decryption undoes its encryption; CBC and padding modelled."
  },
  {
   "property": "C74",
   "status": "partial",
   "theorems": [
    "Verif.Aes.C74_panics_iff",
    "Verif.Aes.C74_refuted",
    "Verif.Aes.C74_block_refuted",
    "Verif.Aes.C74_padding_refuted",
    "Verif.Aes.C74_partial"
   ],
   "note": "Refuted: inputs that are no whole blocks and too long paddings panic; other bad paddings go unnoticed. C74_panics_iff says exactly when it panics."
  },
  {
   "property": "C75",
   "status": "proved",
   "theorems": [
    "Verif.Md5.C75_agree",
    "Verif.Md5.C75_shape",
    "Verif.Md5.C75_check",
    "Verif.Md5.C75_collision",
    "Verif.Md5.C75_extra"
   ],
   "note": "MD5 itself is a parameter."
  },
  {
   "property": "C76",
   "status": "partial",
   "theorems": [
    "Verif.Aes.C76_result",
    "Verif.Aes.C76_refuted",
    "Verif.Aes.C76_partial"
   ],
   "note": "Refuted: append writes the padding into spare capacity behind the slice. C76_partial: exactly those bytes and no others."
  },
  {
   "property": "C77",
   "status": "proved",
   "theorems": [
    "Verif.Fs.C77_reported",
    "Verif.Fs.C77_reassembled"
   ],
   "note": "For every working directory, every Tidy file system and every sequence of uploads with plain names (no separators, not . or ..): if for each k the last upload of chunk k that created its file wrote it completely, no later chunk of that file was uploaded, and the operating system does not fail during MakeFile, the new target is exactly the concatenation. Interrupted uploads are a write of any prefix."
  },
  {
   "property": "C78",
   "status": "partial",
   "theorems": [
    "Verif.Fs.C78_twice_exact",
    "Verif.Fs.C78_idempotent_refuted",
    "Verif.Fs.C78_never_reported",
    "Verif.Fs.C78_missing_refuted",
    "Verif.Fs.C78_nothing_uploaded_partial"
   ],
   "note": "Refuted twice: a second MakeFile appends all chunks again (C78_twice_exact for every state, C78_idempotent_refuted), and a missing chunk is never reported and makes later ones be lost (C78_never_reported, C78_missing_refuted). Proved: nothing uploaded at all is reported."
  },
  {
   "property": "C79",
   "status": "partial",
   "theorems": [
    "Verif.Fs.C79_own_upload_partial",
    "Verif.Fs.C79_others_kept",
    "Verif.Fs.C79_empty_refuted",
    "Verif.Fs.C79_dotdot_refuted"
   ],
   "note": "Proved for plain names: exactly the directory of the upload goes, others stay. Refuted for the empty name (all uploads are removed, success reported) and for .. (everything below the working directory is removed)."
  },
  {
   "property": "C80",
   "status": "proved",
   "theorems": [
    "Verif.StringsGo.C80_empty",
    "Verif.StringsGo.C80_short_names",
    "Verif.StringsGo.C80_name",
    "Verif.StringsGo.C80_name_depends",
    "Verif.StringsGo.C80_mobile",
    "Verif.StringsGo.C80_email_short",
    "Verif.StringsGo.C80_email",
    "Verif.StringsGo.C80_email_depends",
    "Verif.StringsGo.C80_bytes_refuted"
   ],
   "note": "Exact output for names, mobile numbers and e-mail addresses and what it depends on. Also shown: the check for three characters counts bytes, so a one-character local part panics or yields NUL, depending on the capacity the runtime chose."
  },
  {
   "property": "C81",
   "status": "partial",
   "theorems": [
    "Verif.StringsGo.C81_idcard",
    "Verif.StringsGo.C81_mobile",
    "Verif.StringsGo.C81_bankcard",
    "Verif.StringsGo.C81_depends",
    "Verif.StringsGo.C81_short_refuted",
    "Verif.StringsGo.C81_bankcard_refuted",
    "Verif.StringsGo.C81_non_ascii_refuted",
    "Verif.StringsGo.C81_total"
   ],
   "note": "Proved for ASCII input longer than the mask; refuted as a masking for short input, for bank cards of more than 16 characters with n >= 12 and for non-ASCII input; never panics."
  },
  {
   "property": "C82",
   "status": "partial",
   "theorems": [
    "Verif.StringsGo.C82_shape",
    "Verif.StringsGo.C82_depends",
    "Verif.StringsGo.C82_short_refuted"
   ],
   "note": "Exact output, no panic; hides for more than four runes; refuted: names of two to four multi-byte characters are shown completely."
  },
  {
   "property": "C83",
   "status": "partial",
   "theorems": [
    "Verif.StringsGo.C83_unchanged",
    "Verif.StringsGo.C83_refuted",
    "Verif.StringsGo.C83_partial"
   ],
   "note": "Refuted: the function returns its argument; C83_partial covers strings that need no change."
  },
  {
   "property": "C84",
   "status": "proved",
   "theorems": [
    "Verif.StringsGo.C84_slice",
    "Verif.StringsGo.C84_runes",
    "Verif.StringsGo.C84_concat",
    "Verif.StringsGo.C84_whole",
    "Verif.StringsGo.C84_panics",
    "Verif.StringsGo.C84_beyond"
   ],
   "note": "Slicing, concatenation, panics; beyond the number of runes the outcome depends on the capacity."
  },
  {
   "property": "C85",
   "status": "proved",
   "theorems": [
    "Verif.Paths.C85_clean",
    "Verif.Paths.C85_join",
    "Verif.Paths.C85_iff",
    "Verif.Paths.C85_inside",
    "Verif.Paths.C85_inside_concat",
    "Verif.Paths.C85_needed",
    "Verif.Paths.C85_strict"
   ],
   "note": "Location semantics without symbolic links, on Unix; filepath.Clean proved not to change where a path leads. C85_strict: a..b is refused though harmless."
  },
  {
   "property": "C86",
   "status": "partial",
   "theorems": [
    "Verif.Paths.C86_targets",
    "Verif.Paths.C86_partial",
    "Verif.Paths.C86_elements_partial",
    "Verif.Paths.C86_refuted",
    "Verif.Paths.C86_all_written"
   ],
   "note": "Refuted: an entry ../evil is written outside (C86_refuted). Proved for archives without malicious names (C86_partial, C86_elements_partial); all entries written in order on success (C86_all_written)."
  },
  {
   "property": "C87",
   "status": "proved",
   "theorems": [
    "Verif.Urls.C87_iff",
    "Verif.Urls.C87_sound",
    "Verif.Urls.C87_root"
   ],
   "note": "RFC 3986 appendix B grammar as specification. The root path / itself is not accepted (C87_root)."
  },
  {
   "property": "C88",
   "status": "partial",
   "theorems": [
    "Verif.Fs.C88_copy_exact",
    "Verif.Fs.C88_copied_partial",
    "Verif.Fs.C88_copied_refuted",
    "Verif.Fs.C88_source_kept"
   ],
   "note": "Refuted: the target is opened without O_TRUNC, so a longer target keeps its tail (C88_copy_exact for all contents). Proved when the target does not exist or is not longer than the source."
  },
  {
   "property": "C89",
   "status": "partial",
   "theorems": [
    "Verif.Fs.C89_scan_partial",
    "Verif.Fs.C89_root_refuted"
   ],
   "note": "Proved for every finite tree and every path but the root (with or without a slash at the end), including that it fails exactly if a directory cannot be read. Refuted for the root directory. No symbolic links in the model."
  },
  {
   "property": "C90",
   "status": "proved",
   "theorems": [
    "Verif.Urls.C90_text",
    "Verif.Urls.C90_no_trailing",
    "Verif.Urls.C90_prefix",
    "Verif.Urls.C90_no_pairs",
    "Verif.Urls.C90_ignored"
   ],
   "note": "Parameters as printed by %v. The prefix is preceded by one slash; see C102 for an empty prefix."
  },
  {
   "property": "C91",
   "status": "proved",
   "theorems": [
    "Verif.Misc.C91_shape",
    "Verif.Misc.C91_negative",
    "Verif.Misc.C91_every_digit_string"
   ],
   "note": "Every random source, size, kind; a negative size panics; every digit string is possible. The seed from the clock is not modelled."
  },
  {
   "property": "C92",
   "status": "partial",
   "theorems": [
    "Verif.SafeMap.C92_linearizable",
    "Verif.SafeMap.C92_readers",
    "Verif.SafeMap.C92_writers",
    "Verif.SafeMap.C92_one_winner_partial",
    "Verif.SafeMap.C92_nil_refuted"
   ],
   "note": "Linearizability proved under every interleaving for all locked methods (Get, Set, TestAndSet, Del, Len, RLockRange, LockRange with a callback that does not use the map), with a generic theorem for objects protected by a read-write mutex (sync.RWMutex trusted). Readers never wait for each other (C92_readers), and a writer runs alone (C92_writers). One winner proved for values that are not nil, refuted for nil values. Callbacks that use the map are C141; odd keys and the Unsafe methods in callbacks are C142."
  },
  {
   "property": "C93",
   "status": "partial",
   "theorems": [
    "Verif.Misc.C93_default",
    "Verif.Misc.C93_set_partial",
    "Verif.Misc.C93_nil_refuted"
   ],
   "note": "Proved for maps that are not nil; refuted for nil: the map made inside is lost."
  },
  {
   "property": "C94",
   "status": "partial",
   "theorems": [
    "Verif.Fs.C94_format_byte_refuted"
   ],
   "note": "Refuted: the result is the same for all sizes (the argument is not used, and the loop variable shadows i). The theorem gives the exact result."
  },
  {
   "property": "C95",
   "status": "partial",
   "theorems": [
    "Verif.Fs.C95_cannot_open",
    "Verif.Fs.C95_row_refuted",
    "Verif.Fs.C95_write_exact",
    "Verif.Fs.C95_kept_partial"
   ],
   "note": "Refuted: the row written does not depend on the argument, and errors of Flush are dropped. Proved: exactly the line 1,2,3,4,\"5,6\" is appended and what was there is kept."
  },
  {
   "property": "C96",
   "status": "partial",
   "theorems": [
    "Verif.Misc.C96_multiple",
    "Verif.Misc.C96_nearest_partial",
    "Verif.Misc.C96_negative_exact",
    "Verif.Misc.C96_negative_refuted"
   ],
   "note": "On rational numbers (no float64 error). Proved for f >= -1/2 unit. Refuted for other negative values: they are rounded up, off by 1/2 to 3/2 units (C96_negative_exact); Round(-k,0) = -k+1 for every k >= 1."
  },
  {
   "property": "C97",
   "status": "partial",
   "theorems": [
    "Verif.Urls.C97_suffix",
    "Verif.Urls.C97_last_partial",
    "Verif.Urls.C97_last_refuted",
    "Verif.Urls.C97_image",
    "Verif.Urls.C97_image_partial",
    "Verif.Urls.C97_image_refuted",
    "Verif.Urls.C97_unicode_refuted"
   ],
   "note": "GetSuffixName: proved for separators that do not overlap themselves, refuted for aaa/aa. IsImage: exact characterisation C97_image; as claimed for ASCII names with extension; refuted for a file named png without extension and for U+0130."
  },
  {
   "property": "C98",
   "status": "partial",
   "theorems": [
    "Verif.LinkedList.C98_zero_list_refuted"
   ],
   "note": "The documented claim is false: insertion into a zero List panics (proved for every memory and value); reading works."
  },
  {
   "property": "C99",
   "status": "partial",
   "theorems": [
    "Verif.TimingWheel.C99_refuted"
   ],
   "note": "Refuted for every input: the duration has the wrong sign, so take polls."
  },
  {
   "property": "C100",
   "status": "partial",
   "theorems": [
    "Verif.Gorm.C100_injective",
    "Verif.Gorm.C100_refuted"
   ],
   "note": "Proved when no column name contains a back quote; refuted otherwise."
  },
  {
   "property": "C101",
   "status": "partial",
   "theorems": [
    "Verif.Urls.C101_refuted",
    "Verif.Urls.C101_partial",
    "Verif.Urls.C101_second_partial"
   ],
   "note": "Refuted by a tab after the first slash; holds if the second character is no tab or newline."
  },
  {
   "property": "C102",
   "status": "partial",
   "theorems": [
    "Verif.Urls.C102_refuted",
    "Verif.Urls.C102_partial"
   ],
   "note": "Refuted: BuildUrl(\"/\", \"a\", 1) = //a/1. Holds when the prefix is not made of slashes only."
  },
  {
   "property": "C103",
   "status": "partial",
   "theorems": [
    "Verif.Fs.C103_upload_stays_inside_partial",
    "Verif.Fs.C103_upload_escapes_refuted",
    "Verif.Fs.C103_make_escapes_refuted"
   ],
   "note": "Proved for a plain upload name and a file name without separators. Refuted for file names with separators: another upload's chunk is overwritten; MakeFile writes outside of its directory."
  },
  {
   "property": "C104",
   "status": "proved",
   "theorems": [
    "Verif.Fs.C104_path_exists",
    "Verif.Fs.C104_mkdir",
    "Verif.Fs.C104_create_dir",
    "Verif.Fs.C104_fails_iff"
   ],
   "note": "Operating system failures other than files in the way are not modelled."
  },
  {
   "property": "C105",
   "status": "partial",
   "theorems": [
    "Verif.Fs.C105_moved_partial",
    "Verif.Fs.C105_failure_keeps",
    "Verif.Fs.C105_success_iff",
    "Verif.Fs.C105_empty_refuted"
   ],
   "note": "Proved for every non-empty target, for success and failure. Refuted for an empty target: success is reported and nothing is moved."
  },
  {
   "property": "C106",
   "status": "partial",
   "theorems": [
    "Verif.Fs.C106_file_exist_exact",
    "Verif.Fs.C106_file_exist_refuted",
    "Verif.Fs.C106_file_exist_partial"
   ],
   "note": "Exact for all file systems (C106_file_exist_exact): also true below a file (ENOTDIR), which refutes the property; proved when no file is on the way."
  },
  {
   "property": "C107",
   "status": "partial",
   "theorems": [
    "Verif.Fs.C107_is_dir",
    "Verif.Fs.C107_is_file_partial",
    "Verif.Fs.C107_is_file_refuted"
   ],
   "note": "IsDir proved. IsFile proved for paths where something is, refuted for all others (true if there is nothing)."
  },
  {
   "property": "C108",
   "status": "partial",
   "theorems": [
    "Verif.Json.C108_exact",
    "Verif.Json.C108_roundtrip_partial",
    "Verif.Json.C108_nil",
    "Verif.Json.C108_injective_partial",
    "Verif.Json.C108_utf8_refuted",
    "Verif.Json.C108_deterministic"
   ],
   "note": "Proved for maps whose keys are valid UTF-8, by a model of encoding/json's writer (sorted keys, escapes) and reader (scanner, unquote); refuted for other keys, which come back with U+FFFD."
  },
  {
   "property": "C109",
   "status": "partial",
   "theorems": [
    "Verif.Json.C109_range",
    "Verif.Json.C109_overflow_refuted",
    "Verif.Json.C109_other_refuted",
    "Verif.Json.C109_number_partial",
    "Verif.Json.C109_exact",
    "Verif.Json.C109_unique"
   ],
   "note": "The texts read are exactly the objects of the JSON grammar (RFC 8259, depth at most 10000), and the entries are exactly its members; numbers in the range of int32 are stored exactly; refuted for the rest: a number out of range or another kind of value is stored as 0 and the error is dropped."
  },
  {
   "property": "C110",
   "status": "proved",
   "theorems": [
    "Verif.Json.C110_html"
   ],
   "note": "For every map: no <, >, & and no byte below 0x20 in the text."
  },
  {
   "property": "C111",
   "status": "partial",
   "theorems": [
    "Verif.Fs.C111_appended_partial",
    "Verif.Fs.C111_calls_partial",
    "Verif.Fs.C111_ragged_refuted",
    "Verif.Fs.C111_glued_refuted"
   ],
   "note": "Proved for files of whole lines with five values and for any number of calls on a new file; refuted for tables with another number of columns (nothing can be read afterwards) and for a last line without newline (the row is glued to it). WriteCsv writes a fixed row, see C95."
  },
  {
   "property": "C112",
   "status": "proved",
   "theorems": [
    "Verif.Fs.C112_read",
    "Verif.Fs.C112_ragged",
    "Verif.Fs.C112_rectangular",
    "Verif.Fs.C112_missing",
    "Verif.Fs.C112_exact"
   ],
   "note": "Exact: a result is given exactly for the texts of the grammar of tables with rows of one length, and it is that table; ragged tables give nil, and without a file the result is nil."
  },
  {
   "property": "C113",
   "status": "partial",
   "theorems": [
    "Verif.Zip.C113_pack",
    "Verif.Zip.C113_cut",
    "Verif.Zip.C113_roundtrip_partial",
    "Verif.Zip.C113_name",
    "Verif.Zip.C113_complete",
    "Verif.Zip.C113_name_empty",
    "Verif.Zip.C113_collision_refuted",
    "Verif.Zip.C113_close_refuted",
    "Verif.Zip.C113_directory"
   ],
   "note": "Proved for files whose new names do not collide; refuted otherwise: the replacement is done everywhere in the name, so different files can get one name and one of them is lost; an error of closing the archive is not reported. Directories cannot be packed. The bytes of an archive are an abstract encoding with a decoder. A failing copy leaves an archive with a cut-off entry (C113_cut)."
  },
  {
   "property": "C114",
   "status": "proved",
   "theorems": [
    "Verif.Zip.C114_written",
    "Verif.Zip.C114_nothing_else",
    "Verif.Zip.C114_success",
    "Verif.Zip.C114_unreadable"
   ],
   "note": "On a file system without symbolic links; modes and times left out."
  },
  {
   "property": "C115",
   "status": "partial",
   "theorems": [
    "Verif.Fs.C115_open_fails",
    "Verif.Fs.C115_chunk_fails",
    "Verif.Fs.C115_success_partial",
    "Verif.Fs.C115_read_refuted",
    "Verif.Fs.C115_write_fails",
    "Verif.Fs.C115_write_refuted"
   ],
   "note": "Failing writes are reported, but remove a finished file of that name (C115_write_refuted); failing reads go unnoticed (C115_read_refuted). C115_success_partial gives the content in every case without failing writes."
  },
  {
   "property": "C116",
   "status": "proved",
   "theorems": [
    "Verif.Fs.C116_file_md5"
   ],
   "note": "The MD5 function itself is a parameter."
  },
  {
   "property": "C117",
   "status": "partial",
   "theorems": [
    "Verif.Fs.C117_image",
    "Verif.Fs.C117_injective",
    "Verif.Fs.C117_empty",
    "Verif.Fs.C117_type_refuted"
   ],
   "note": "Content and errors proved; the type is always PNG (C117_type_refuted)."
  },
  {
   "property": "C118",
   "status": "partial",
   "theorems": [
    "Verif.Fs.C118_deleted_partial",
    "Verif.Fs.C118_empty_refuted",
    "Verif.Fs.C118_failure_refuted"
   ],
   "note": "Proved for paths whose last element is a name; the empty path succeeds without effect, and a path ending in /.. fails after removing (refuted)."
  },
  {
   "property": "C119",
   "status": "partial",
   "theorems": [
    "Verif.FileSize.C119_small",
    "Verif.FileSize.C119_text_partial",
    "Verif.FileSize.C119_carry_refuted",
    "Verif.FileSize.C119_negative_refuted",
    "Verif.FileSize.C119_round",
    "Verif.FileSize.C119_float"
   ],
   "note": "For every logarithm that is right up to a hundred-thousandth. The number can be 1024 (C119_carry_refuted), and negative numbers wrap (C119_negative_refuted)."
  },
  {
   "property": "C120",
   "status": "partial",
   "theorems": [
    "Verif.Times.C120_order_partial",
    "Verif.Times.C120_injective_partial",
    "Verif.Times.C120_shape_partial",
    "Verif.Times.C120_order_refuted"
   ],
   "note": "Proved for years of four digits; false from the year 10000 on."
  },
  {
   "property": "C121",
   "status": "partial",
   "theorems": [
    "Verif.Sniff.C121_exclusive",
    "Verif.Sniff.C121_first",
    "Verif.Sniff.C121_pdf",
    "Verif.Sniff.C121_image",
    "Verif.Sniff.C121_video_partial",
    "Verif.Sniff.C121_mp4_refuted",
    "Verif.Sniff.C121_text_partial",
    "Verif.Sniff.C121_text_refuted"
   ],
   "note": "Exact characterisations of all four predicates, over the table of net/http as recalled; the parts of the statement that fail are refuted (MP4 files taken for icons, texts taken for images or fonts, tags followed by binary data)."
  },
  {
   "property": "C122",
   "status": "partial",
   "theorems": [
    "Verif.Json.C122_text_partial",
    "Verif.Json.C122_foreign_refuted",
    "Verif.Json.C122_map",
    "Verif.Json.C122_ints",
    "Verif.Json.C122_deterministic",
    "Verif.Json.C122_injective_partial",
    "Verif.Json.C122_type_refuted"
   ],
   "note": "The text is a document of the JSON grammar that means the value; independent of map order; injective for values without floats and with UTF-8 strings; refuted for foreign parts (empty string) and for types (1 and 1.0). The text of a float is a parameter; structs and own marshalers are not modelled."
  },
  {
   "property": "C123",
   "status": "partial",
   "theorems": [
    "Verif.Sys.C123_text",
    "Verif.Sys.C123_dir_partial",
    "Verif.Sys.C123_backslash_refuted",
    "Verif.Sys.C123_path_refuted",
    "Verif.Sys.C123_noargs_refuted"
   ],
   "note": "Exact text in all cases; leads to the directory part if there are no backslashes. Refuted: backslashes in names become separators; a program found through PATH gives the working directory; no arguments panic."
  },
  {
   "property": "C124",
   "status": "partial",
   "theorems": [
    "Verif.Sys.C124_run",
    "Verif.Sys.C124_total",
    "Verif.Sys.C124_unnoticed_refuted",
    "Verif.Sys.C124_silent_refuted"
   ],
   "note": "Exact result for every script of lines, over any shell. Refuted: a failing command before the last one is not noticed; errors may have an empty text. Commands over several lines or reading stdin are in C192."
  },
  {
   "property": "C125",
   "status": "partial",
   "theorems": [
    "Verif.Sys.C125_parent_partial",
    "Verif.Sys.C125_error",
    "Verif.Sys.C125_container_refuted"
   ],
   "note": "Proved for a parent in the process table; refuted for a process whose parent lies outside its container (parent 0): it signals its own process group."
  },
  {
   "property": "C126",
   "status": "partial",
   "theorems": [
    "Verif.Gorm.C126_delete_succeeds",
    "Verif.Gorm.C126_delete",
    "Verif.Gorm.C126_ok",
    "Verif.Gorm.C126_column",
    "Verif.Gorm.C126_hard_refuted"
   ],
   "note": "Exact effect on the table, all or nothing; refuted: rows are removed for good."
  },
  {
   "property": "C127",
   "status": "partial",
   "theorems": [
    "Verif.Gorm.C127_ids",
    "Verif.Gorm.C127_id",
    "Verif.Gorm.C127_where",
    "Verif.Gorm.C127_where_empty",
    "Verif.Gorm.C127_atomic",
    "Verif.Gorm.C127_ok",
    "Verif.Gorm.C127_missing_refuted",
    "Verif.Gorm.C127_deleted_refuted"
   ],
   "note": "Exact effect on the table for all three functions, all or nothing, no change without conditions; refuted: missing rows are not reported, deleted rows are updated, updated_at is not."
  },
  {
   "property": "C128",
   "status": "partial",
   "theorems": [
    "Verif.Gorm.C128_marks_partial",
    "Verif.Gorm.C128_columns",
    "Verif.Gorm.C128_again_refuted",
    "Verif.Gorm.C128_missing_refuted"
   ],
   "note": "Exact effect on the table; refuted: again moves the time of the deletion, a missing row is not reported."
  },
  {
   "property": "C129",
   "status": "proved",
   "theorems": [
    "Verif.Gorm.C129_insert"
   ],
   "note": "All or nothing; complete rows only."
  },
  {
   "property": "C130",
   "status": "partial",
   "theorems": [
    "Verif.DelayQueue.C130_fifo",
    "Verif.DelayQueue.C130_once",
    "Verif.DelayQueue.C130_closed",
    "Verif.DelayQueue.C130_ahead",
    "Verif.DelayQueue.C130_delivers",
    "Verif.DelayQueue.C130_stuck_refuted",
    "Verif.DelayQueue.C130_lost_refuted",
    "Verif.DelayQueue.C130_ends",
    "Verif.DelayQueue.C130_closed_stays",
    "Verif.DelayQueue.C130_closes_only",
    "Verif.DelayQueue.C130_open"
   ],
   "note": "First in, first out, once, closing and delivery are proved for every interleaving in which nobody else calls Take; refuted: a goroutine whose channel is full and whose reader has gone stays forever, and its entry is lost. A goroutine asleep when its context is cancelled can end, in no other way does it end, and a closed channel stays closed."
  },
  {
   "property": "C131",
   "status": "proved",
   "theorems": [
    "Verif.Limiter.Log.C131_injective"
   ],
   "note": "The text is injective on 64-bit numbers."
  },
  {
   "property": "C132",
   "status": "partial",
   "theorems": [
    "Verif.Json.C132_dump_partial",
    "Verif.Json.C132_error",
    "Verif.Json.C132_nil_refuted",
    "Verif.Json.C132_string_refuted"
   ],
   "note": "Proved for records of any shape nested at most 10000 deep (the limit of the reader): the map has the fields of the record, numbers with their digits, strings made UTF-8; foreign parts and records that are no struct are errors. Refuted: a nil record is no error and makes SplitInsertTableRecords return success without inserting; strings that are no UTF-8 are changed."
  },
  {
   "property": "C133",
   "status": "partial",
   "theorems": [
    "Verif.Misc.C133_decimal_partial",
    "Verif.Misc.C133_near_partial",
    "Verif.Misc.C133_idempotent",
    "Verif.Misc.C133_half_refuted",
    "Verif.Misc.C133_whole_refuted",
    "Verif.Misc.C133_overflow_refuted",
    "Verif.Misc.C133_range_refuted",
    "Verif.Misc.C133_special",
    "Verif.Misc.C133_negative_refuted",
    "Verif.Misc.C133_low_refuted",
    "Verif.Misc.C133_whole_exact",
    "Verif.Misc.C133_negative_whole_refuted",
    "Verif.Misc.C133_negative_idempotent_refuted",
    "Verif.Misc.C133_zero_exact",
    "Verif.Misc.C133_right_exactly",
    "Verif.Misc.C133_large_exact"
   ],
   "note": "In a model of float64 with rounding, overflow and the tables of math.Pow10: for f >= 0, -290 <= n <= 290 and without overflow the result is the right decimal up to a few roundings (exactly the float64 next to it for n from 0 to 22) unless f*10^n is next to the middle of two; always within half a unit up to a part in 2^48; rounding twice changes nothing up to 2^46 units. Refuted: 0.49999999999999994 becomes 1, 2^52+1 becomes 2^52+2, f*10^n beyond float64 gives Inf, n above 308 or below -323 gives NaN, negative numbers. NaN and the infinities stay what they are (C133_special). For whole numbers below 2^53 and n = 0 the result is exactly described (C133_whole_exact): negative ones from -2^52 to -1 all go up by one, so that rounding again and again climbs to 0. With n = 0 every finite number is described exactly (C133_zero_exact, C133_whole_exact, C133_large_exact), and exactly which ones between -2^52 and 2^52 become a nearest whole number (C133_right_exactly). For n from -323 to -309 the half unit overflows and every finite number becomes infinity (C133_low_refuted)."
  },
  {
   "property": "C134",
   "status": "partial",
   "theorems": [
    "Verif.Math.C134_pow",
    "Verif.Math.C134_floor_partial",
    "Verif.Math.C134_within",
    "Verif.Math.C134_above_refuted",
    "Verif.Math.C134_convert_refuted",
    "Verif.Math.C134_undefined_refuted"
   ],
   "note": "Proved for 1 <= a < 2^48 and for all powers of two, for every math.Log that is accurate to a part in 2^50; for all a < 2^64 the result is right or one too large. Refuted: 2^49-1 gives 49; from 2^54 on 2^k-1 gives k; nothing is defined for zero and negative numbers. Instances for floating point T are not modelled."
  },
  {
   "property": "C135",
   "status": "partial",
   "theorems": [
    "Verif.Bloom.C135_bits",
    "Verif.Bloom.C135_probes",
    "Verif.Bloom.C135_rate_partial",
    "Verif.Bloom.C135_rate_twice",
    "Verif.Bloom.C135_rate_refuted",
    "Verif.Bloom.C135_one"
   ],
   "note": "On real numbers; with float64 rounding in C160. Bits, probes and absence of panics proved; the estimated rate is at most p*2^(1/log2(1/p)), hence at most 2p for p <= 1/2. Refuted: at most p (rate 2^(-3/2), every capacity from 10000)."
  },
  {
   "property": "C136",
   "status": "partial",
   "theorems": [
    "Verif.HeapShared.C136_same",
    "Verif.HeapShared.C136_new",
    "Verif.HeapShared.C136_keeps",
    "Verif.HeapShared.C136_sorts",
    "Verif.HeapShared.C136_popped_stays",
    "Verif.HeapShared.C136_push_exact",
    "Verif.HeapShared.C136_moved",
    "Verif.HeapShared.C136_overwrites_refuted",
    "Verif.HeapShared.C136_update",
    "Verif.HeapShared.C136_update_refuted"
   ],
   "note": "The results are those of the heap of its elements for every history (C136_same); New and a history without Push permute the caller's cells and leave the rest (C136_new, C136_keeps); popping everything sorts the slice descending (C136_sorts); the popped element stays in the array (C136_popped_stays). Refuted: Push on a part of a slice overwrites the cell behind it (C136_push_exact, C136_overwrites_refuted); after Push has moved the heap, assignments of the caller do not reach it (C136_update_refuted) and no call touches its array (C136_moved), before that they do (C136_update)."
  },
  {
   "property": "C137",
   "status": "partial",
   "theorems": [
    "Verif.ReapWorld.C137_apart",
    "Verif.ReapWorld.C137_panics",
    "Verif.ReapWorld.C137_foreign_exact",
    "Verif.ReapWorld.C137_foreign_panic",
    "Verif.ReapWorld.C137_dead",
    "Verif.ReapWorld.C137_foreign_refuted"
   ],
   "note": "Proved: with entries used only where they came from, every reap gives the results it would give alone, for every program over any number of reaps (C137_apart), and panics only if it would alone (C137_panics); dead entries are harmless everywhere (C137_dead). Refuted: a live entry given to another reap removes the element at the same place there and reports success (C137_foreign_exact), or panics (C137_foreign_panic); SetValue leaves the entry's own reap out of order (C137_foreign_refuted)."
  },
  {
   "property": "C138",
   "status": "partial",
   "theorems": [
    "Verif.MeapNan.C138_ordinary",
    "Verif.MeapNan.C138_new_keys",
    "Verif.MeapNan.C138_leak_refuted",
    "Verif.MeapNan.C138_lookup_refuted"
   ],
   "note": "Proved: for ordinary keys the results are those of C15/C16 (C138_ordinary); in general those of a history in which every odd key pushed is a fresh one and look-ups of it ask for a key that never occurs (C138_new_keys), so ordinary keys are not disturbed. Refuted: odd keys are not found, not replaced, not removed (C138_lookup_refuted), and each leaves at least one entry in the index for good (C138_leak_refuted)."
  },
  {
   "property": "C139",
   "status": "partial",
   "theorems": [
    "Verif.MathFloat.C139_order",
    "Verif.MathFloat.C139_nan",
    "Verif.MathFloat.C139_symmetry_refuted",
    "Verif.MathFloat.C139_abs",
    "Verif.MathFloat.C139_numbers",
    "Verif.MathFloat.C139_all_numbers"
   ],
   "note": "On bit patterns, with the comparison of IEEE 754. Proved: without NaN the result of Max and Min is one of the arguments and bounds both (C139_order); Abs is the absolute value and changes at most the sign bit (C139_abs). Refuted: with NaN the second argument is returned, whichever is NaN, and with two zeros the sign depends on the order (C139_nan, C139_symmetry_refuted); Abs(-0) is -0. The bit patterns stand for exactly the numbers of Go/Float64 (C139_numbers, C139_all_numbers)."
  },
  {
   "property": "C140",
   "status": "partial",
   "theorems": [
    "Verif.TimingFine.C140_conserved",
    "Verif.TimingFine.C140_at_most_once",
    "Verif.TimingFine.C140_one_bucket",
    "Verif.TimingFine.C140_registered",
    "Verif.TimingFine.C140_covers",
    "Verif.TimingFine.C140_blocked",
    "Verif.TimingFine.C140_deadlock_refuted",
    "Verif.TimingFine.C140_early_refuted"
   ],
   "note": "add is interruptible after reading the time, after entering the bucket, after setting the expiration and between wheels, in Run as well. Proved for every interleaving: conservation, at most one start (C140_conserved, C140_at_most_once), one bucket and the right slot (C140_one_bucket), no forgotten bucket (C140_registered); executions with atomic add are covered (C140_covers). Refuted, even with buckets processed in order: Run can block for ever on its own mutex (C140_deadlock_refuted, by C140_blocked), and a timer can be started many ticks early (C140_early_refuted), when a goroutine is interrupted between bucket.add and setExpiration while its bucket is processed and used again. C161 has the condition under which both hold."
  },
  {
   "property": "C141",
   "status": "partial",
   "theorems": [
    "Verif.SafeMapLock.C141_bad_refuted",
    "Verif.SafeMapLock.C141_dead",
    "Verif.SafeMapLock.C141_flat",
    "Verif.SafeMapLock.C141_readers",
    "Verif.SafeMapLock.C141_ends",
    "Verif.SafeMapLock.C141_nested_read_refuted",
    "Verif.SafeMapLock.C141_exclusive",
    "Verif.SafeMapLock.C141_methods"
   ],
   "note": "The lock with its waiting writers, any nesting of calls in callbacks. Refuted: a goroutine whose RLockRange callback writes, or whose LockRange callback uses a locking method at all, never finishes (C141_bad_refuted) and takes the map with it (C141_dead); a callback that only reads deadlocks with one writer (C141_nested_read_refuted). Proved: no deadlock if callbacks do not use the map (C141_flat), or if nobody writes (C141_readers); every execution ends (C141_ends); exclusion (C141_exclusive)."
  },
  {
   "property": "C142",
   "status": "partial",
   "theorems": [
    "Verif.SafeMapKeys.C142_get",
    "Verif.SafeMapKeys.C142_set",
    "Verif.SafeMapKeys.C142_testAndSet",
    "Verif.SafeMapKeys.C142_del",
    "Verif.SafeMapKeys.C142_len",
    "Verif.SafeMapKeys.C142_nan",
    "Verif.SafeMapKeys.C142_unhashable",
    "Verif.SafeMapKeys.C142_unhashable_text",
    "Verif.SafeMapKeys.C142_get_unhashable_refuted",
    "Verif.SafeMapKeys.C142_all_win_refuted",
    "Verif.SafeMapKeys.C142_range_once",
    "Verif.SafeMapKeys.C142_range_nodup",
    "Verif.SafeMapKeys.C142_clear",
    "Verif.SafeMapKeys.C142_clear_empty",
    "Verif.SafeMapKeys.C142_update",
    "Verif.SafeMapKeys.C142_update_refuted",
    "Verif.SafeMapKeys.C142_range_goes_on"
   ],
   "note": "Proved: the methods with good keys in any state, odd keys present or not (C142_get, C142_set, C142_testAndSet, C142_del, C142_len); NaN keys and unhashable keys (C142_nan, C142_unhashable); ranges with callbacks that use UnsafeSet and UnsafeDel (C142_range_once, C142_range_nodup, C142_clear, C142_update, C142_range_goes_on). Refuted: Get of an unhashable key depends on whether the map was ever written (C142_get_unhashable_refuted); every TestAndSet with a NaN key wins (C142_all_win_refuted); a range that updates values grows the map at NaN keys (C142_update_refuted)."
  },
  {
   "property": "C143",
   "status": "partial",
   "theorems": [
    "Verif.Calendar.C143_calendar",
    "Verif.Calendar.C143_days",
    "Verif.Calendar.C143_valid",
    "Verif.Calendar.C143_order",
    "Verif.Calendar.C143_dir_partial",
    "Verif.Calendar.C143_back_refuted"
   ],
   "note": "The calendar computation of package time (abs, absDate of Go 1.18) is modelled and proved to be the Gregorian calendar, stated as the day after each day (C143_calendar, C143_days, C143_valid, C143_order). Directories: constant within a day and increasing in a zone with a fixed offset, in years of four digits (C143_dir_partial; other years refuted in C120). Refuted: where the offset falls shortly after midnight the directory goes back (C143_back_refuted)."
  },
  {
   "property": "C144",
   "status": "partial",
   "theorems": [
    "Verif.BloomConc.C144_no_ghosts",
    "Verif.BloomConc.C144_one_adder",
    "Verif.BloomConc.C144_as_one",
    "Verif.BloomConc.C144_lost_refuted"
   ],
   "note": "Proved: no ghosts with any number of adders (C144_no_ghosts); with one adder at a time no false negatives during and after (C144_one_adder) and the filter of the sequential history (C144_as_one). Refuted: two adders on one word lose a bit, a lasting false negative (C144_lost_refuted). Reads and writes of a word are atomic in the model."
  },
  {
   "property": "C145",
   "status": "partial",
   "theorems": [
    "Verif.HashConc.C145_shape",
    "Verif.HashConc.C145_serial",
    "Verif.HashConc.C145_equal_refuted"
   ],
   "note": "Proved: one at a time the result is the hash of the argument (C145_serial); in general it is the hash of a concatenation of the last arguments written (C145_shape). Refuted: with two goroutines equal bytes get different hashes (C145_equal_refuted). Reset, Write and Sum64 of maphash are atomic in the model."
  },
  {
   "property": "C146",
   "status": "partial",
   "theorems": [
    "Verif.Gorm.C146_insert",
    "Verif.Gorm.C146_update",
    "Verif.Gorm.C146_read_insert",
    "Verif.Gorm.C146_read_update",
    "Verif.Gorm.C146_mark_refuted",
    "Verif.Gorm.C146_array_refuted",
    "Verif.Gorm.C146_limit_refuted"
   ],
   "note": "GORM v1.24.6 (clause.Expr.Build, Statement.AddVar) is modelled from its source as known, it is not in the repository; texts with @ are not modelled. Proved for names without question marks and fields that are no slices (C146_insert, C146_update, C146_read_insert, C146_read_update). Refuted: a question mark in a name shifts all values (C146_mark_refuted); a field that is an array becomes several values (C146_array_refuted), beyond any limit of place holders (C146_limit_refuted)."
  },
  {
   "property": "C147",
   "status": "partial",
   "theorems": [
    "Verif.Gorm.C147_update",
    "Verif.Gorm.C147_insert",
    "Verif.Gorm.C147_id_refuted",
    "Verif.Gorm.C147_half_refuted"
   ],
   "note": "From the Go maps through text, place holders and GORM to the rows of a table, with MySQL semantics of UPDATE (assignments from left to right). Proved for plain names, records or updates with the same fields, the id not among the updated fields, constraints that hold throughout (C147_update, C147_insert). Refuted: updating the id (C147_id_refuted: the result depends on the order of iteration); all or nothing (C147_half_refuted)."
  },
  {
   "property": "C148",
   "status": "proved",
   "theorems": [
    "Verif.Aes.C148_cipher",
    "Verif.Aes.C148_permutation",
    "Verif.Aes.C148_roundtrip"
   ],
   "note": "AES is written after FIPS-197 (Spec/AesBlock), checked on the vectors of its appendices B and C. crypto/aes (tables, assembly) is taken to compute it."
  },
  {
   "property": "C149",
   "status": "partial",
   "theorems": [
    "Verif.Aes.C149_key_refuted",
    "Verif.Aes.C149_tamper_refuted"
   ],
   "note": "Both parts are refuted, for every cipher: the key is the initialisation vector, and one decryption gives it away (C149_key_refuted); bits of the data can be flipped without an error (C149_tamper_refuted)."
  },
  {
   "property": "C150",
   "status": "partial",
   "theorems": [
    "Verif.Md5Digest.C150_stream",
    "Verif.Md5Digest.C150_between",
    "Verif.Md5Digest.C150_digest",
    "Verif.Md5Digest.C150_helpers",
    "Verif.Md5Digest.C150_collision_refuted"
   ],
   "note": "MD5 is written after RFC 1321 (Spec/Md5Rfc, checked on its test suite), the buffering after crypto/md5. Proved for all pieces: C150_stream, C150_between, C150_digest, C150_helpers. Refuted: what passes CheckMd5 may be another content (C150_collision_refuted, the collision of Wang et al. with any common ending)."
  },
  {
   "property": "C151",
   "status": "partial",
   "theorems": [
    "Verif.RingTSO.C151_counts",
    "Verif.RingTSO.C151_counters",
    "Verif.RingTSO.C151_settled",
    "Verif.RingTSO.C151_tso",
    "Verif.RingTSO.C151_unread",
    "Verif.RingTSO.C151_pending",
    "Verif.RingTSO.C151_overtake_refuted"
   ],
   "note": "Proved with store buffers that keep the order of one processor's stores (x86-TSO): C151_tso, C151_unread, C151_pending. Refuted where stores to different places may overtake each other (C151_overtake_refuted): the consumer gets an element nobody pushed. Proved even there: the numbers of elements agree, the counters only go up, and at rest all unread cells are right (C151_counts, C151_counters, C151_settled). Loads that are delayed or reordered are not modelled; Push and Pop are refuted already without buffers (C23)."
  },
  {
   "property": "C152",
   "status": "proved",
   "theorems": [
    "Verif.FsLink.C152_stat",
    "Verif.FsLink.C152_unique",
    "Verif.FsLink.C152_nolink",
    "Verif.FsLink.C152_lexical",
    "Verif.FsLink.C152_exact",
    "Verif.FsLink.C152_text_refuted",
    "Verif.FsLink.C152_reach_refuted"
   ],
   "note": "Proved for the walk of Linux with 40 links: C152_stat, C152_unique, C152_nolink; without links C152_lexical, C152_exact. Refuted are stronger readings: with links the text of a path says nothing about where it leads (C152_text_refuted), and a place that the text names may not be reached (C152_reach_refuted). No permissions, no hard links."
  },
  {
   "property": "C153",
   "status": "proved",
   "theorems": [
    "Verif.FsLink.C153_isdir",
    "Verif.FsLink.C153_pathexists",
    "Verif.FsLink.C153_existed",
    "Verif.FsLink.C153_compare",
    "Verif.FsLink.C153_dangling_refuted",
    "Verif.FsLink.C153_loop_refuted"
   ],
   "note": "Proved: C153_isdir, C153_pathexists, C153_existed, C153_compare. Refuted are stronger readings: the helpers disagree on a dangling link (C153_dangling_refuted), and say yes for links that point at each other (C153_loop_refuted)."
  },
  {
   "property": "C154",
   "status": "proved",
   "theorems": [
    "Verif.FsLink.C154_mkdir",
    "Verif.FsLink.C154_already",
    "Verif.FsLink.C154_createdir",
    "Verif.FsLink.C154_createdir_again",
    "Verif.FsLink.C154_success",
    "Verif.FsLink.C154_dangling_refuted"
   ],
   "note": "Proved: C154_mkdir, C154_already, C154_createdir, C154_createdir_again (CreateDir changes nothing where the directories are already there), and success without links C154_success. Refuted are stronger readings: with a dangling link PathExists says there is nothing, but CreateDir fails (C154_dangling_refuted)."
  },
  {
   "property": "C155",
   "status": "proved",
   "theorems": [
    "Verif.FsLink.C155_deleted",
    "Verif.FsLink.C155_name",
    "Verif.FsLink.C155_link",
    "Verif.FsLink.C155_failure",
    "Verif.FsLink.C155_text_refuted",
    "Verif.FsLink.C155_missing_refuted"
   ],
   "note": "Proved for paths whose last element is a name: C155_deleted, C155_name, C155_link, C155_failure. Refuted are stronger readings: the file that the text names is the one removed (C155_text_refuted), and success means that nothing is there (C155_missing_refuted). Paths that end in `..` are not modelled."
  },
  {
   "property": "C156",
   "status": "proved",
   "theorems": [
    "Verif.FsLink.C156_copy",
    "Verif.FsLink.C156_fresh",
    "Verif.FsLink.C156_self",
    "Verif.FsLink.C156_success",
    "Verif.FsLink.C156_failure",
    "Verif.FsLink.C156_dangling_refuted",
    "Verif.FsLink.C156_empty_refuted"
   ],
   "note": "Proved: C156_copy, C156_fresh, C156_self, C156_success, C156_failure. Refuted are stronger readings: a copy onto a dangling link makes a file elsewhere (C156_dangling_refuted); a failing copy leaves an empty file (C156_empty_refuted)."
  },
  {
   "property": "C157",
   "status": "partial",
   "theorems": [
    "Verif.FsLink.C157_links",
    "Verif.FsLink.C157_inside_partial",
    "Verif.FsLink.C157_last",
    "Verif.FsLink.C157_refuted",
    "Verif.FsLink.C157_dest_refuted"
   ],
   "note": "Proved: C157_links, C157_last, and that nothing outside changes if no link is below the target and no name has `..` (C157_inside_partial). Refuted without these: a link in the target directory leads out (C157_refuted; `..` is C86), and the target is cleaned as text (C157_dest_refuted). Entries that cannot be read are not in this model (they are in C86)."
  },
  {
   "property": "C158",
   "status": "proved",
   "theorems": [
    "Verif.FsLink.C158_changes",
    "Verif.FsLink.C158_success",
    "Verif.FsLink.C158_failure",
    "Verif.FsLink.C158_file",
    "Verif.FsLink.C158_text_refuted",
    "Verif.FsLink.C158_empty_refuted",
    "Verif.FsLink.C158_link_refuted",
    "Verif.FsLink.C158_target_refuted"
   ],
   "note": "C158_changes, C158_success, C158_failure, C158_file. Refuted are stronger readings: the paths are made absolute as text, so with links another file moves than the path leads to (C158_text_refuted); a moved relative link leads elsewhere (C158_link_refuted); a link at the target is replaced, not followed (C158_target_refuted); without a target nothing is moved and no error reported (C158_empty_refuted)."
  },
  {
   "property": "C159",
   "status": "proved",
   "theorems": [
    "Verif.FsLink.C159_scan",
    "Verif.FsLink.C159_read_refuted",
    "Verif.FsLink.C159_behind_refuted"
   ],
   "note": "C159_scan. Refuted are stronger readings: all that is listed can be read (C159_read_refuted), every file that can be reached is listed (C159_behind_refuted)."
  },
  {
   "property": "C160",
   "status": "partial",
   "theorems": [
    "Verif.Bloom.C160_sizes",
    "Verif.Bloom.C160_probes",
    "Verif.Bloom.C160_rate_partial",
    "Verif.Bloom.C160_rate_twice",
    "Verif.Bloom.C160_bits_refuted"
   ],
   "note": "C160_sizes, C160_probes, C160_rate_twice and C160_rate_partial (factor 2^(1/log2(1/p))) proved. Missing since false: 'at least as many bits as needed' exactly; rounding can give one bit fewer (C160_bits_refuted: 286746937 elements, rate one half)."
  },
  {
   "property": "C161",
   "status": "proved",
   "theorems": [
    "Verif.TimingFine.C161_not_early",
    "Verif.TimingFine.C161_no_waiting",
    "Verif.TimingFine.C161_run_goes_on",
    "Verif.TimingFine.C161_none_late"
   ],
   "note": "Conditions: buckets processed in order (as C57), and Run takes a bucket only when no other goroutine is inside add (guard nobodyAdds; a goroutine that has not read the time yet, or has returned, does not count). C140_early_refuted and C140_deadlock_refuted show that the second one is needed."
  },
  {
   "property": "C162",
   "status": "partial",
   "theorems": [
    "Verif.TimingFine.C162_same",
    "Verif.TimingFine.C162_not_early",
    "Verif.TimingFine.C162_after",
    "Verif.TimingFine.C162_panic_refuted",
    "Verif.TimingFine.C162_stuck_refuted"
   ],
   "note": "Proved in range (C162_same): if no expiration exceeds B and B*(wheelSize+1) < 2^63, the 64-bit machine has exactly the executions of the unbounded one, so C140 and C161 carry over (C162_not_early); with at most 500000 buckets every AfterFunc until 2233 is in range (C162_after). Missing since false out of range: AfterFunc with the greatest Duration divides by zero with 2^21 buckets (C162_panic_refuted); a timer far in the future makes Run wait forever for its own mutex with 20 buckets (C162_stuck_refuted)."
  },
  {
   "property": "C163",
   "status": "proved",
   "theorems": [
    "Verif.Heap.C163_same",
    "Verif.Heap.C163_push",
    "Verif.Heap.C163_pop",
    "Verif.Heap.C163_remove",
    "Verif.Heap.C163_fix",
    "Verif.Heap.C163_new",
    "Verif.Heap.C163_loops",
    "Verif.Heap.C163_swaps",
    "Verif.Heap.C163_n_same",
    "Verif.Heap.C163_n_bounds",
    "Verif.Heap.Count.C163_counted"
   ],
   "note": "The loops with counters (Model/HeapCost) are the loops of Model/Heap (C163_same, C163_n_same), for every container with less and swap, so also Reap and Meap (C163_loops). Calls of less and swap are counted, not machine steps. The swaps are counted exactly (C163_swaps): a container that counts the calls of its own swap arrives at the same number. All calls, of less and of swap, are counted exactly once (C163_counted): the code written as programs without counters, on a less and a swap that count themselves, gives the same numbers, also for HeapN."
  },
  {
   "property": "C164",
   "status": "proved",
   "theorems": [
    "Verif.Ring.C164_same",
    "Verif.Ring.C164_grow",
    "Verif.Ring.C164_bounds",
    "Verif.Ring.C164_exact"
   ],
   "note": "Grow with what its two copy calls report (Model/RingCost), proved equal to Model/Ring without the counter (C164_same). Hypotheses as in C20 (fewer than 2^64 elements offered, MPopCopy not on a ring of size 0). The counters are exact (C164_exact): the whole queue for every call that changes the capacity of the ring of Model/Ring, nothing for any other call."
  },
  {
   "property": "C165",
   "status": "partial",
   "theorems": [
    "Verif.OpenFiles.C165_one_file",
    "Verif.OpenFiles.C165_copyFile",
    "Verif.OpenFiles.C165_upload_partial",
    "Verif.OpenFiles.C165_upload_leaks",
    "Verif.OpenFiles.C165_uploads_refuted",
    "Verif.OpenFiles.C165_makeFile",
    "Verif.OpenFiles.C165_makeFile_refuted",
    "Verif.OpenFiles.C165_zipFiles",
    "Verif.OpenFiles.C165_unzip_partial",
    "Verif.OpenFiles.C165_unzip_needs",
    "Verif.OpenFiles.C165_unzip_refuted"
   ],
   "note": "Proved for all but two functions. Unzip defers the closing of every file to its end: it closes all (C165_unzip_partial) but needs one descriptor per file of the archive (C165_unzip_needs, C165_unzip_refuted). BreakPointContinue returns without closing when the write fails (C165_upload_leaks, C165_uploads_refuted); the finalizer of package os may close the file later and is not modelled. With one free descriptor MakeFile reports success and makes an empty file (C165_makeFile_refuted)."
  },
  {
   "property": "C166",
   "status": "partial",
   "theorems": [
    "Verif.Ring.C166_taking_clears_nothing",
    "Verif.Ring.C166_fix_partial",
    "Verif.Ring.C166_round",
    "Verif.Ring.C166_grow",
    "Verif.Ring.C166_popped_refuted",
    "Verif.Ring.C166_reset"
   ],
   "note": "Popped elements stay in their cells: refuted for every size and element (C166_popped_refuted). Proved what holds instead: no taking call changes a cell (C166_taking_clears_nothing); the cells of a bounded ring are the last size accepted elements since New or Reset (C166_round; C166_fix_partial with the bound of C22: a size dividing 2^64 or fewer than 2^64 accepted); Grow and Reset release (C166_grow, C166_reset)."
  },
  {
   "property": "C167",
   "status": "partial",
   "theorems": [
    "Verif.LinkedList.C167_list_keeps_its_elements",
    "Verif.LinkedList.C167_removed_points_to_nothing",
    "Verif.LinkedList.C167_cleared_refuted"
   ],
   "note": "Proved for lists and for Remove; false for Clear: an element cleared away still reaches the other cleared elements and, through prev and list, the list with everything pushed since (C167_cleared_refuted). The field list of the sentinel is not counted as a pointer: the code never assigns it."
  },
  {
   "property": "C168",
   "status": "partial",
   "theorems": [
    "Verif.TimingWhole.C168_closed",
    "Verif.TimingWhole.C168_panic_only",
    "Verif.TimingWhole.C168_panic_refuted",
    "Verif.TimingWhole.C168_rest",
    "Verif.TimingWhole.C168_refines",
    "Verif.TimingWhole.C168_at_most_once",
    "Verif.TimingWhole.C168_exclusive",
    "Verif.TimingWhole.C168_receiver",
    "Verif.TimingWhole.C168_buffer",
    "Verif.TimingWhole.C168_released",
    "Verif.TimingWhole.C168_looks",
    "Verif.TimingWhole.C168_not_before",
    "Verif.TimingWhole.C168_adder_blocked",
    "Verif.TimingWhole.C168_run_blocked",
    "Verif.TimingWhole.C168_next_push_blocks",
    "Verif.TimingWhole.C168_returns",
    "Verif.TimingWhole.C168_after_cancel_refuted",
    "Verif.TimingWhole.C168_run_refuted"
   ],
   "note": "Proved until the goroutine of channel has seen the cancellation: exclusion, receiver, release of the mutex, no lost wakeup (C168_exclusive, C168_receiver, C168_released, C168_looks), and for all executions that the wheel behaves as in Model/TimingFine (C168_refines). Refuted afterwards: the flag sleeping stays set, so the next AfterFunc that opens a bucket blocks for ever holding the mutex (C168_after_cancel_refuted, C168_adder_blocked, C168_next_push_blocks), and a Run that is moving timers never returns (C168_run_refuted, C168_run_blocked). Run is called once; popping in take is one step. The end: the channel is closed exactly if its goroutine has ended (C168_closed), Run panics only at the receive of nil after the cancellation, the close and the last bucket (C168_panic_only, C168_rest), and this does happen (C168_panic_refuted)."
  },
  {
   "property": "C169",
   "status": "partial",
   "theorems": [
    "Verif.Bloom.C169_single_probe",
    "Verif.Bloom.C169_upper_partial",
    "Verif.Bloom.C169_rate_refuted"
   ],
   "note": "Refuted: pos only xors the hash with the seed before the remainder, so with a power-of-two number of bits all probes agree whenever one does; the rate is at least that of a single probe (C169_single_probe). For every wanted rate 2^-j and every size 2^k from 2^10 to 2^56 some capacity gives a rate of at least 3/(8j) (C169_rate_refuted). Proved: for every size the upper bound of a single probe into k*n bits (C169_upper_partial). Sizes on real numbers."
  },
  {
   "property": "C170",
   "status": "partial",
   "theorems": [
    "Verif.Rand.C170_lcg",
    "Verif.Rand.C170_lcg_injective",
    "Verif.Rand.C170_shape",
    "Verif.Rand.C170_fresh_refuted",
    "Verif.Rand.C170_prefix",
    "Verif.Rand.C170_few",
    "Verif.Rand.C170_every_refuted",
    "Verif.Rand.C170_state"
   ],
   "note": "Proved: size and kind (C170_shape), the generator and its state in closed form (C170_lcg, C170_lcg_injective, C170_state), at one time shorter strings are prefixes of longer ones (C170_prefix). Refuted: the seed counts only modulo 2^31-1 nanoseconds, so strings repeat (C170_fresh_refuted), at most 2^31-2 strings of each size and kind exist (C170_few), and from ten digits or seven letters on some string is never returned (C170_every_refuted). math/rand of Go 1.18 with its table as a parameter; that the rejection loop of Int31n ends is not proved; one goroutine draws."
  },
  {
   "property": "C171",
   "status": "partial",
   "theorems": [
    "Verif.TimingFine.C171_simulated",
    "Verif.TimingFine.C171_simulated_paced",
    "Verif.TimingFine.C171_conserved",
    "Verif.TimingFine.C171_at_most_once",
    "Verif.TimingFine.C171_not_early",
    "Verif.TimingFine.C171_forgotten_refuted",
    "Verif.TimingFine.C171_early_refuted"
   ],
   "note": "Proved: a wheel whose clock is set behaves as one whose clock always shows the highest time so far (C171_simulated, C171_simulated_paced), so tasks are conserved and started at most once (C171_conserved, C171_at_most_once), and if Run is paced as in C161 a task starts at most a tick before its expiration in the time of the wheel, which is not after the highest time shown (C171_not_early). Refuted from every state: when the clock is set back, AfterFunc forgets tasks that are due before the time of the wheel, for good (C171_forgotten_refuted), and ScheduleFunc starts them at once, early (C171_early_refuted)."
  },
  {
   "property": "C172",
   "status": "partial",
   "theorems": [
    "Verif.Limiter.Window.C172_exact",
    "Verif.Limiter.Window.C172_bound",
    "Verif.Limiter.Window.C172_exceeded_refuted",
    "Verif.Limiter.Window.C172_outage_refuted"
   ],
   "note": "Proved for arbitrary clock readings: the exact answers (C172_exact), and that k settings back let through at most limit + k(limit-1) calls in an aligned window (C172_bound). Refuted: that bound is reached, for every limit from 2 on, every window and every k (C172_exceeded_refuted); and after the clock is set back a full limiter rejects every call until the clock has caught up (C172_outage_refuted)."
  },
  {
   "property": "C173",
   "status": "partial",
   "theorems": [
    "Verif.Limiter.Log.C173_exact",
    "Verif.Limiter.Log.C173_bound",
    "Verif.Limiter.Log.C173_exceeded_refuted"
   ],
   "note": "Proved for arbitrary clock readings: which calls are accepted (C173_exact), and that for every rule k settings back let through at most limit + k(limit-1) calls in an aligned window (C173_bound, all limits at least 1). Refuted: that bound is reached with one rule, for every limit from 2 on, every window and every k (C173_exceeded_refuted), and with two rules in an example."
  },
  {
   "property": "C174",
   "status": "partial",
   "theorems": [
    "Verif.TimingFine.C174_follows",
    "Verif.TimingFine.C174_distinct",
    "Verif.TimingFine.C174_stop",
    "Verif.TimingFine.C174_stop_refuted",
    "Verif.TimingFine.C174_spin_refuted"
   ],
   "note": "Proved for every scheduler and interleaving: the starts are the first occurrences of the scheduler, each rounded down to a millisecond, in order, none left out, none twice (C174_follows); they are different milliseconds if the scheduler advances by a millisecond at least (C174_distinct); a Stop that returns true ends the schedule for ever (C174_stop). Refuted: with a scheduler that advances by less than a millisecond the task is started any number of times within one millisecond, for the same time (C174_spin_refuted); a Stop while the task is on its way returns false and the schedule goes on (C174_stop_refuted). The clock does not run backwards (see C171); Next is a function of its argument."
  },
  {
   "property": "C175",
   "status": "partial",
   "theorems": [
    "Verif.Fs.C175_intact",
    "Verif.Fs.C175_retries",
    "Verif.Fs.C175_bytes",
    "Verif.Fs.C175_others",
    "Verif.Fs.C175_names",
    "Verif.Fs.C175_alone",
    "Verif.Fs.C175_mixed_refuted",
    "Verif.Fs.C175_zeros_refuted",
    "Verif.Fs.C175_make_refuted"
   ],
   "note": "Proved for every interleaving: retries of one content without failing writes leave that content whenever nobody is writing (C175_retries), whatever happened before the last Create (C175_intact); every byte was there at first, was uploaded for its place, or is zero (C175_bytes); uploads of other chunks change nothing (C175_others, C175_names); a call without interruption is the sequential model (C175_alone). Refuted: two contents for one chunk can both be reported as stored and leave a mixture (C175_mixed_refuted); a failing retry leaves zeros that nobody uploaded (C175_zeros_refuted); MakeFile during a retry reports success with an empty file (C175_make_refuted)."
  },
  {
   "property": "C176",
   "status": "partial",
   "theorems": [
    "Verif.Fs.C176_whole",
    "Verif.Fs.C176_grows",
    "Verif.Fs.C176_lost_refuted",
    "Verif.Fs.C176_alone"
   ],
   "note": "Proved for every interleaving: the file is what it was with whole rows behind, at most one per successful call and at least one if there was any (C176_whole); rows never vanish again (C176_grows); a call without interruption is the sequential model (C176_alone). Refuted exactly: of n calls that report success any number m with 1 <= m <= n of rows may be there (C176_lost_refuted), since the end of the file is looked up before the write."
  },
  {
   "property": "C177",
   "status": "partial",
   "theorems": [
    "Verif.DelayQueue.C177_fifo",
    "Verif.DelayQueue.C177_once",
    "Verif.DelayQueue.C177_ahead",
    "Verif.DelayQueue.C177_delivers",
    "Verif.DelayQueue.C177_slow_refuted",
    "Verif.DelayQueue.C177_closes_only",
    "Verif.DelayQueue.C177_others_open"
   ],
   "note": "Proved for any number of channels and interleavings, with cancellations and other takers: order per channel (C177_fifo), every entry at most once over all readers, pushed, due and out of the queue (C177_once), at most size + 1 entries ahead of each reader (C177_ahead). If no context is cancelled, nobody else calls Take and all readers go on reading, a due entry can always reach a reader: no wakeup is lost among the channels (C177_delivers). Refuted for a waiting reader beside one that has gone: the goroutine of the waiting reader sleeps for ever, whatever is pushed (C177_slow_refuted). A channel ends only after the cancellation of its own context (C177_closes_only, C177_others_open)."
  },
  {
   "property": "C178",
   "status": "partial",
   "theorems": [
    "Verif.TimingWheel.C178_conserved",
    "Verif.TimingWheel.C178_registered",
    "Verif.TimingWheel.C178_clean",
    "Verif.TimingWheel.C178_never",
    "Verif.TimingWheel.C178_lost_refuted",
    "Verif.TimingWheel.C178_joins_refuted",
    "Verif.TimingWheel.C178_late_refuted"
   ],
   "note": "Proved for any number of calls one after the other, with former goroutines that go on taking buckets: the counts of schedulings, starts and stops add up and nothing is started twice (C178_conserved), a bucket with timers is in the queue, on its way to the present Run, in its hand, or in a channel nobody reads (C178_registered), and as long as no bucket is in such a channel the wheel is as with a single call, so C56-C63 hold (C178_clean). Refuted: timers in a bucket that was in the old channel are never started, whatever happens, unless a timer with another expiration comes into the bucket (C178_never for every reachable state, C178_lost_refuted); timers set later join them (C178_joins_refuted), or bring them back too late (C178_late_refuted)."
  },
  {
   "property": "C179",
   "status": "partial",
   "theorems": [
    "Verif.HeapShared.C179_cells",
    "Verif.HeapShared.C179_popped_refuted",
    "Verif.HeapShared.C179_only"
   ],
   "note": "Proved: exactly what the cells behind the heap hold after every history, as a stack that Pop and Remove push on and Push pops from, until append moves the heap (C179_cells); the array holds nothing but elements, elements taken out, and what was behind the heap or in the new cells, and a heap as long as its array holds its elements only (C179_only). Refuted: an element that Pop returned stays in the array, whatever is called, as long as the heap does not get longer than it was after that Pop (C179_popped_refuted, for every heap and history). Reap, Meap and HeapN use the same append and reslicing; their arrays are not modelled."
  },
  {
   "property": "C180",
   "status": "partial",
   "theorems": [
    "Verif.MakeConc.C180_pieces",
    "Verif.MakeConc.C180_together",
    "Verif.MakeConc.C180_alone",
    "Verif.MakeConc.C180_mixed_refuted",
    "Verif.MakeConc.C180_gone_refuted",
    "Verif.MakeConc.C180_unlinked_refuted"
   ],
   "note": "Proved: every file holds what was there before and then pieces of the calls, and a call that reports success has put all its chunks, in order, into one file (C180_pieces); if all calls succeed the path has the old content followed by exactly the bytes of all calls, each call's bytes in order (C180_together), for one call the old content followed by its chunks (C180_alone). Refuted: the upload is whole - two successful calls can mix their chunks (C180_mixed_refuted); the file is at the path - a call that fails removes the file of one that succeeds, before or after it writes (C180_gone_refuted, C180_unlinked_refuted). The chunks do not change meanwhile; ReadDir is not a separate action."
  },
  {
   "property": "C181",
   "status": "partial",
   "theorems": [
    "Verif.CopyConc.C181_bytes",
    "Verif.CopyConc.C181_length",
    "Verif.CopyConc.C181_same",
    "Verif.CopyConc.C181_source",
    "Verif.CopyConc.C181_mixed_refuted",
    "Verif.CopyConc.C181_circle_refuted"
   ],
   "note": "Proved: every byte of every file was at the start at the same position of some file (C181_bytes), so no file gets longer than the longest one (C181_length); if all calls into a file copy the same content and the sources are not changed by other contents, a call that succeeds reports the length of the source and leaves it over what was there, and the sources are kept - also for a file copied onto itself (C181_same, C181_source). Refuted: calls with different sources into one file both succeed and leave a mixture (C181_mixed_refuted); files copied onto each other can both become mixtures (C181_circle_refuted). No file is removed or renamed meanwhile."
  },
  {
   "property": "C182",
   "status": "partial",
   "theorems": [
    "Verif.MoveConc.C182_once",
    "Verif.MoveConc.C182_kept",
    "Verif.MoveConc.C182_there",
    "Verif.MoveConc.C182_lost_refuted",
    "Verif.MoveConc.C182_exchange_refuted"
   ],
   "note": "Proved: of all calls with one source at most one succeeds if nothing is moved to that path, and the path is empty then (C182_once); if every call has a destination of its own with no file at it (or moves a file to its own path), every file is still somewhere, also with chains (C182_kept); if moreover no destination is the source of another call, the file of every successful call is at its destination (C182_there). Refuted: two files moved to one path, both calls succeed and one file is gone (C182_lost_refuted); two calls that exchange files both succeed and one file is gone (C182_exchange_refuted). Renaming is one action of the operating system; no links, and nothing but these calls changes the files."
  },
  {
   "property": "C183",
   "status": "partial",
   "theorems": [
    "Verif.MakeDuring.C183_pieces",
    "Verif.MakeDuring.C183_removed",
    "Verif.MakeDuring.C183_all",
    "Verif.MakeDuring.C183_missing_refuted",
    "Verif.MakeDuring.C183_half_refuted",
    "Verif.MakeDuring.C183_again_refuted",
    "Verif.MakeDuring.C183_read_refuted"
   ],
   "note": "Proved: after a success the file has, behind what it had before, one piece per listed entry, and each piece is a beginning of its chunk (C183_pieces); a chunk that was complete before the loop and is not uploaded again is there as a whole, or, only if it is removed meanwhile, not at all (C183_removed); if all chunks are complete before and none is uploaded again or removed, the file is the upload, whatever else is in the directory (C183_all) - the last two if no read fails. Refuted: success with a chunk missing that RemoveChunk has removed (C183_missing_refuted), with half of a chunk that is being uploaded (C183_half_refuted), without a chunk that was complete and is uploaded again with the same content (C183_again_refuted), with a part of a chunk where a read failed (C183_read_refuted). One upload per chunk at a time (C175 has several), one call of MakeFile (C180 has several)."
  },
  {
   "property": "C184",
   "status": "partial",
   "theorems": [
    "Verif.TimingRuns.C184_conserved",
    "Verif.TimingRuns.C184_at_most_once",
    "Verif.TimingRuns.C184_registered",
    "Verif.TimingRuns.C184_exclusive",
    "Verif.TimingRuns.C184_early_refuted",
    "Verif.TimingRuns.C184_deadlock_refuted",
    "Verif.TimingRuns.C184_example"
   ],
   "note": "Proved for any number of calls and every interleaving: each scheduling is started, stopped, dropped or pending, in a bucket or in the hand of one call (C184_conserved); a timer of AfterFunc starts at most once (C184_at_most_once); a bucket with timers is in the queue or some call has it (C184_registered); two calls never empty one bucket or hold one timer (C184_exclusive). C184_example: two calls at work at once. Refuted: a timer is started two ticks early when a bucket waits in the channel of one call while the other moves the wheels on (C184_early_refuted); a call waits for ever for the mutex it holds itself (C184_deadlock_refuted)."
  },
  {
   "property": "C185",
   "status": "partial",
   "theorems": [
    "Verif.RandConc.C185_shape",
    "Verif.RandConc.C185_goes_on",
    "Verif.RandConc.C185_alone",
    "Verif.RandConc.C185_alone_exists",
    "Verif.RandConc.C185_mixed_refuted",
    "Verif.RandConc.C185_repeat_refuted"
   ],
   "note": "Proved: size and kind are right in every interleaving, also with other users of the source (C185_shape); no call panics or is stuck (C185_goes_on); a call that nobody disturbs between its seeding and its return returns the string of its time (C185_alone, and every such string is returned so: C185_alone_exists). Refuted: for any strings of any times there is an execution in which one call, whatever time it has read, returns all of them one after the other (C185_mixed_refuted); in particular one word again and again (C185_repeat_refuted)."
  },
  {
   "property": "C186",
   "status": "partial",
   "theorems": [
    "Verif.Math.C186_pow",
    "Verif.Math.C186_special",
    "Verif.Math.C186_mono",
    "Verif.Math.C186_sign",
    "Verif.Math.C186_near",
    "Verif.Math.C186_relative_refuted"
   ],
   "note": "Proved: powers of two exact, subnormal ones too, whatever math.Log does (C186_pow); the special cases (C186_special); the error is at most 2^-49 plus half a last place (C186_near, math.Log right up to a part in 2^50 on the fractions); the order and the sign are kept if math.Log keeps the order of the fractions (C186_mono, C186_sign). Refuted: a few last places - the logarithm of the number next to 1 is wrong by more than three percent, whatever float64 math.Log returns (C186_relative_refuted; the error is absolute, not relative). float32 is not modelled."
  },
  {
   "property": "C187",
   "status": "partial",
   "theorems": [
    "Verif.Reap.C187_reap_cells",
    "Verif.Reap.C187_reap_goes_on",
    "Verif.Reap.C187_reap_only",
    "Verif.Reap.C187_reap_removed_refuted",
    "Verif.Reap.C187_reap_popped_refuted",
    "Verif.Meap.C187_meap_cells",
    "Verif.Meap.C187_meap_only",
    "Verif.Meap.C187_meap_removed_refuted"
   ],
   "note": "Refuted: a handle that Remove or Pop has taken out stays in the array, with its value, for as long as the heap does not get longer than it was then (C187_reap_removed_refuted, C187_reap_popped_refuted), and the entry of a key removed from a Meap until something is pushed (C187_meap_removed_refuted). Proved: exactly which handles and entries the cells behind the heap hold, call by call (C187_reap_cells, C187_meap_cells), with the results unchanged (also C187_reap_goes_on); nothing else is kept: handles that are out, each at most once (C187_reap_only), entries that were pushed with that value (C187_meap_only)."
  },
  {
   "property": "C188",
   "status": "proved",
   "theorems": [
    "Verif.Misc.C188_order",
    "Verif.Misc.C188_whole"
   ],
   "note": "Monotonicity of rounding and of each operation of Round (C188_order); all numbers with n = 0 by C133_zero_exact, C133_whole_exact and C133_large_exact (C188_whole). math.Pow10 and math.Trunc as in C133."
  },
  {
   "property": "C189",
   "status": "proved",
   "theorems": [
    "Verif.Math.C189_pow",
    "Verif.Math.C189_special",
    "Verif.Math.C189_mono",
    "Verif.Math.C189_float32",
    "Verif.Math.C189_accurate",
    "Verif.Math.C189_sign"
   ],
   "note": "Go/Float32 has the conversion float64 to float32; log2Float32 is log2Float of C186 followed by it. math.Log is a parameter: nothing is assumed of it for C189_pow and C189_special, LogMono for C189_mono, LogOk for C189_accurate and C189_sign. C189_float32: the result is a float32."
  },
  {
   "property": "C190",
   "status": "proved",
   "theorems": [
    "Verif.Misc.C190_value",
    "Verif.Misc.C190_sign",
    "Verif.Misc.C190_minus_zero",
    "Verif.Misc.C190_plus",
    "Verif.Misc.C190_unit"
   ],
   "note": "Model/RoundSign gives every number its sign bit (rules of IEEE 754 for +, *, / and math.Trunc); its values are those of Model/Round by definition (C190_value). C190_unit extends C133_negative_refuted to every n."
  },
  {
   "property": "C191",
   "status": "proved",
   "theorems": [
    "Verif.MathFloat32.C191_order",
    "Verif.MathFloat32.C191_nan",
    "Verif.MathFloat32.C191_asymmetric",
    "Verif.MathFloat32.C191_abs",
    "Verif.MathFloat32.C191_numbers",
    "Verif.MathFloat32.C191_all_numbers",
    "Verif.MathFloat32.C191_through_float64",
    "Verif.MathFloat32.C191_widens"
   ],
   "note": "On bit patterns: C191_order, C191_nan (C191_asymmetric shows what follows), C191_abs; C191_numbers and C191_all_numbers say which numbers the patterns stand for; C191_widens and C191_through_float64 connect it with C139."
  },
  {
   "property": "C192",
   "status": "partial",
   "theorems": [
    "Verif.Sys.C192_run",
    "Verif.Sys.C192_total",
    "Verif.Sys.C192_same",
    "Verif.Sys.C192_cat_refuted"
   ],
   "note": "Proved for every text and shell that reads no further than the line of the command, as POSIX asks (C192_run, C192_total, C192_same). Refuted: commands get only what the caller wrote; cat returns the text behind it and the exit that ShellExec has added, and that text is not executed (C192_cat_refuted)."
  },
  {
   "property": "C193",
   "status": "partial",
   "theorems": [
    "Verif.GoSet.C193_contains",
    "Verif.GoSet.C193_len",
    "Verif.GoSet.C193_float64",
    "Verif.GoSet.C193_nan_refuted"
   ],
   "note": "Proved for every == (C193_contains, C193_len) and for float64 on bit patterns (C193_float64). Refuted: what was added can be removed; after an Add of NaN the set is never empty again (C193_nan_refuted)."
  },
  {
   "property": "C194",
   "status": "partial",
   "theorems": [
    "Verif.Heap.C194_sorts",
    "Verif.Heap.C194_minimum",
    "Verif.Heap.C194_nan_refuted"
   ],
   "note": "Proved if no NaN is among the elements, in the slice or brought by a call (C194_sorts, C194_minimum; infinities and zeros of both signs included). Refuted: of b, NaN, a the heap returns b first, also if a < b, for all numbers and every NaN (C194_nan_refuted)."
  },
  {
   "property": "C195",
   "status": "partial",
   "theorems": [
    "Verif.Limiter.Token.C195_half_partial",
    "Verif.Limiter.Token.C195_rate_refuted"
   ],
   "note": "Proved for half of the rate, for every history (C195_half_partial). Refuted for the whole rate, for every rate and number of visits: a caller who comes every two seconds less a nanosecond is granted half of it, because lastTime drops the fraction of a second (C195_rate_refuted)."
  }
 ]
}