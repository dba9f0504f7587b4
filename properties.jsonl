{"id": "C01", "title": "Skip-list map is a finite map", "statement": "On a map from sklmapx.New, for every history of Set/Get/Del/Len/Clear over a totally ordered key type, Get(k) returns the value of the latest Set(k,_) not followed by Del(k) or Clear (and ok=false if there is none), Del(k) returns true exactly when k was present, and Len() is the number of distinct present keys. None of this depends on the random tower heights.", "quantifier": "every history of operations, every key/value, every seed of the height generator", "why_tests_cant": "the pointer structure depends on a random seed and on the whole history; tests see a handful of histories with a handful of seeds", "anchors": ["dsx/mapx/sklmapx/sklmapx.go:search", "dsx/mapx/sklmapx/sklmapx.go:insert", "dsx/mapx/sklmapx/sklmapx.go:delete", "dsx/mapx/sklmapx/sklmapx.go:Set", "dsx/mapx/sklmapx/sklmapx.go:Get", "dsx/mapx/sklmapx/sklmapx.go:Del", "dsx/mapx/sklmapx/sklmapx.go:Len", "dsx/mapx/sklmapx/sklmapx.go:Clear"]}
{"id": "C02", "title": "Skip-list enumeration is sorted, complete and duplicate-free", "statement": "After every history, Keys() is strictly ascending and contains exactly the present keys; Values() lists their current values in the same order; ToMap() maps exactly the present keys to their values; repeated Next() on a fresh Iterator yields the same (key,value) pairs in the same order and then ok=false.", "quantifier": "every history of operations, every seed", "why_tests_cant": "enumeration follows level-0 pointers built by every earlier insert and delete under random heights", "anchors": ["dsx/mapx/sklmapx/sklmapx.go:Keys", "dsx/mapx/sklmapx/sklmapx.go:Values", "dsx/mapx/sklmapx/sklmapx.go:ToMap", "dsx/mapx/sklmapx/sklmapx.go:Next", "dsx/mapx/sklmapx/sklmapx.go:Iterator"]}
{"id": "C03", "title": "Seek positions an iterator exactly", "statement": "Seek(k) on a present key returns (k, its value, true) and the following Next calls enumerate exactly the entries with larger keys in ascending order; Seek on an absent key returns ok=false and the following Next calls enumerate the whole map from the smallest key; Rewind also restarts from the smallest key.", "quantifier": "every reachable map, every key sought", "why_tests_cant": "positions depend on the whole pointer structure; only a few seeks can be tried", "anchors": ["dsx/mapx/sklmapx/sklmapx.go:Seek", "dsx/mapx/sklmapx/sklmapx.go:Rewind", "dsx/mapx/sklmapx/sklmapx.go:Next"]}
{"id": "C04", "title": "An exhausted iterator stays exhausted", "statement": "Once Next() has returned ok=false, every later Next() also returns ok=false without panicking.", "quantifier": "every reachable map, every number of extra Next calls", "why_tests_cant": "the usual for-loop stops at the first false, so a test never makes the extra call", "anchors": ["dsx/mapx/sklmapx/sklmapx.go:Next"]}
{"id": "C05", "title": "Iteration survives modification of other keys", "statement": "If between two Next() calls the map is changed by any Set and Del calls that do not delete the iterator's current key (and no Clear), the next Next() returns the smallest key now present that is larger than the current key, with its current value, or ok=false if there is none.", "quantifier": "every reachable map, every iterator position, every interleaved sequence of Set/Del", "why_tests_cant": "quantifies over arbitrary mutations between two calls", "anchors": ["dsx/mapx/sklmapx/sklmapx.go:Next", "dsx/mapx/sklmapx/sklmapx.go:insert", "dsx/mapx/sklmapx/sklmapx.go:delete"]}
{"id": "C06", "title": "Unrelated keys do not disturb each other, for every Ordered key type", "statement": "For every key type allowed by constraints.Ordered (floats included), Set(k2,_) with k2 different from k1 never changes what Get(k1) returns.", "quantifier": "every history, every Ordered key type including float64 with NaN", "why_tests_cant": "NaN keys are rarely tried and the damage shows only for some insertion orders", "anchors": ["dsx/mapx/sklmapx/sklmapx.go:search", "dsx/mapx/sklmapx/sklmapx.go:insert"]}
{"id": "C07", "title": "Height generator stays in range and seeds never repeat", "statement": "For every seed, the tower height drawn for a new entry is between 1 and 16; the 64-bit mixing function is a bijection, one generator does not repeat a state before 2^64 draws, and the seeds handed to maps created by New are pairwise distinct until 2^64 maps have been created.", "quantifier": "every 64-bit seed, every number of draws and of created maps below 2^64", "why_tests_cant": "a 64-bit domain cannot be enumerated", "anchors": ["dsx/mapx/sklmapx/splitmix64.go:next", "dsx/mapx/sklmapx/splitmix64.go:splitmix64", "dsx/mapx/sklmapx/splitmix64.go:root_next", "dsx/mapx/sklmapx/sklmapx.go:rand_height"]}
{"id": "C08", "title": "String renders all entries in key order", "statement": "String() is 'sklmapx[' followed by key:value for the present entries in ascending key order separated by one space, followed by ']'.", "quantifier": "every reachable map, every formatting of keys and values", "why_tests_cant": "separator placement depends on the number of entries", "anchors": ["dsx/mapx/sklmapx/sklmapx.go:String"]}
{"id": "C09", "title": "Ordered map is a finite map whose two halves never diverge", "statement": "For every history of Set/Get/Del/Len/Clear, OrdMap.Get/Len agree with a finite map, i.e. the hash map and the ordered key index always hold the same keys.", "quantifier": "every history, every seed, totally ordered keys", "why_tests_cant": "divergence between two containers appears only after particular histories", "anchors": ["dsx/mapx/ordmapx/ordmapx.go:Set", "dsx/mapx/ordmapx/ordmapx.go:Get", "dsx/mapx/ordmapx/ordmapx.go:Del", "dsx/mapx/ordmapx/ordmapx.go:Clear", "dsx/mapx/ordmapx/ordmapx.go:Len"]}
{"id": "C10", "title": "Ordered map enumeration is aligned and early-stop is exact", "statement": "Keys() is strictly ascending and lists exactly the present keys; Values()[i] is the value of Keys()[i]; Range visits entries in ascending key order with their values and stops right after the first callback that returns true, visiting nothing else.", "quantifier": "every reachable map, every callback", "why_tests_cant": "quantifies over callbacks and histories", "anchors": ["dsx/mapx/ordmapx/ordmapx.go:Keys", "dsx/mapx/ordmapx/ordmapx.go:Values", "dsx/mapx/ordmapx/ordmapx.go:Range"]}
{"id": "C11", "title": "Concurrent map is linearizable", "statement": "For any number of goroutines calling Get/Has/Size/Keys/Values/Set/Delete/Clear with any interleaving of their steps, every completed call returns what it would return in some sequential order of the calls that respects real time; Keys/Values are exact snapshots at one instant (each present key once).", "quantifier": "every number of goroutines, every program of calls, every schedule", "why_tests_cant": "schedules cannot be enumerated by tests", "anchors": ["dsx/mapx/syncmapx/syncmapx.go:Get", "dsx/mapx/syncmapx/syncmapx.go:Has", "dsx/mapx/syncmapx/syncmapx.go:Size", "dsx/mapx/syncmapx/syncmapx.go:Keys", "dsx/mapx/syncmapx/syncmapx.go:Values", "dsx/mapx/syncmapx/syncmapx.go:Set", "dsx/mapx/syncmapx/syncmapx.go:Delete", "dsx/mapx/syncmapx/syncmapx.go:Clear"]}
{"id": "C12", "title": "Concurrent map never races on its storage", "statement": "In every schedule, while a Set/Delete/Clear call is accessing the underlying map no other call is accessing it; only read calls may overlap each other.", "quantifier": "every schedule of any number of goroutines", "why_tests_cant": "race detectors only see executed schedules", "anchors": ["dsx/mapx/syncmapx/syncmapx.go:Set", "dsx/mapx/syncmapx/syncmapx.go:Delete", "dsx/mapx/syncmapx/syncmapx.go:Clear", "dsx/mapx/syncmapx/syncmapx.go:Get"]}
{"id": "C13", "title": "Linked queue is a FIFO queue", "statement": "For every history, Dequeue returns the elements in the order they were enqueued, each once, (zero,false) when empty, never panics; Peek returns the element the next Dequeue returns; IsEmpty tells whether all enqueued elements were dequeued.", "quantifier": "every history of Enqueue/Dequeue/Peek/IsEmpty, every behaviour of the node pool", "why_tests_cant": "node recycling makes behaviour depend on the garbage collector and on history", "anchors": ["dsx/linkedx/queuex/queuex.go:Enqueue", "dsx/linkedx/queuex/queuex.go:Dequeue", "dsx/linkedx/queuex/queuex.go:Peek", "dsx/linkedx/queuex/queuex.go:IsEmpty"]}
{"id": "C14", "title": "Linked stack is a LIFO stack", "statement": "For every history, Pop removes and returns the most recently pushed element not yet popped ((zero,false) when empty) and never panics; Peek returns it without removing; Len is the number of elements.", "quantifier": "every history of Push/Pop/Peek/Len, every behaviour of the node pool", "why_tests_cant": "node recycling makes behaviour depend on history", "anchors": ["dsx/linkedx/stackx/stackx.go:Push", "dsx/linkedx/stackx/stackx.go:Pop", "dsx/linkedx/stackx/stackx.go:Peek", "dsx/linkedx/stackx/stackx.go:Len"]}
{"id": "C15", "title": "Linked deque is a double-ended queue", "statement": "For every history of pushes, pops and peeks at both ends, the deque returns exactly what an abstract double-ended sequence returns, across 64-element node boundaries and node recycling.", "quantifier": "every history, every behaviour of the node pool", "why_tests_cant": "node boundaries, emptying and recycling combine in unboundedly many ways", "anchors": ["dsx/linkedx/dequex/dequex.go:PushFront", "dsx/linkedx/dequex/dequex.go:PushBack", "dsx/linkedx/dequex/dequex.go:PopFront", "dsx/linkedx/dequex/dequex.go:PopBack", "dsx/linkedx/dequex/dequex.go:PeekFront", "dsx/linkedx/dequex/dequex.go:PeekBack"]}
{"id": "C16", "title": "Linked list is an indexable sequence", "statement": "For every history, Append/Insert/Remove/At/Iterate/Len behave like the same operations on an abstract sequence: Insert(i,v) for 0<=i<=Len puts v at position i, Remove(i) for 0<=i<Len removes and returns element i and is a no-op returning false otherwise, Len is the number of elements.", "quantifier": "every history, every index, every behaviour of the node pool", "why_tests_cant": "stale tail pointers only show after particular histories", "anchors": ["dsx/linkedx/listx/listx.go:Append", "dsx/linkedx/listx/listx.go:Insert", "dsx/linkedx/listx/listx.go:Remove", "dsx/linkedx/listx/listx.go:At", "dsx/linkedx/listx/listx.go:Iterate", "dsx/linkedx/listx/listx.go:Len"]}
{"id": "C17", "title": "Ring queue is a bounded FIFO queue", "statement": "A ring from New(n), n>0, holds up to n elements: Enqueue accepts while fewer than n elements are held and returns false otherwise, Dequeue/Peek return elements in FIFO order, IsEmpty/IsFull tell whether 0/n elements are held; no operation panics.", "quantifier": "every capacity, every history", "why_tests_cant": "wrap-around positions depend on the whole history", "anchors": ["dsx/slicex/queuex/queuex.go:New", "dsx/slicex/queuex/queuex.go:Enqueue", "dsx/slicex/queuex/queuex.go:Dequeue", "dsx/slicex/queuex/queuex.go:Peek", "dsx/slicex/queuex/queuex.go:IsEmpty", "dsx/slicex/queuex/queuex.go:IsFull", "dsx/slicex/queuex/queuex.go:Head", "dsx/slicex/queuex/queuex.go:Cap"]}
{"id": "C18", "title": "Slice stack is a LIFO stack", "statement": "For every history of Push/Pop/Peek/IsEmpty/Len, the slice-backed stack returns exactly what an abstract stack returns, whatever growth policy append uses.", "quantifier": "every history, every capacity growth policy", "why_tests_cant": "in-place reuse of the backing array after Pop then Push is history dependent", "anchors": ["dsx/slicex/stackx/stackx.go:Push", "dsx/slicex/stackx/stackx.go:Pop", "dsx/slicex/stackx/stackx.go:Peek", "dsx/slicex/stackx/stackx.go:Len", "dsx/slicex/stackx/stackx.go:IsEmpty"]}
{"id": "C19", "title": "Slice list is an indexable sequence", "statement": "For every history, the slice-backed list behaves like an abstract sequence: Append adds at the end, Insert(i,v) with 0<=i<=Len puts v at position i and shifts the rest, any other index panics; Remove(i)/At(i) return element i for 0<=i<Len and (zero,false) otherwise with no effect; Iterate visits elements in order and stops after the first false; Len counts.", "quantifier": "every history, every index, every capacity growth policy", "why_tests_cant": "overlapping copy and in-place append are history dependent", "anchors": ["dsx/slicex/listx/listx.go:Append", "dsx/slicex/listx/listx.go:Insert", "dsx/slicex/listx/listx.go:Remove", "dsx/slicex/listx/listx.go:At", "dsx/slicex/listx/listx.go:Iterate"]}
{"id": "C20", "title": "Get and Set clamp the index", "statement": "On a non-empty Slice, Get(i)/Set(i,v) read/write position min(max(i,0),len-1) and change nothing else; on an empty Slice Get returns the zero value and Set does nothing; neither panics.", "quantifier": "every slice content, every int index, every value", "why_tests_cant": "index domain is all of int64", "anchors": ["dsx/slicex/slicex.go:Get", "dsx/slicex/slicex.go:Set", "dsx/slicex/slicex.go:preprocIndexException"]}
{"id": "C21", "title": "Splice replaces exactly the clamped window", "statement": "Splice(i,j,v...) leaves the slice equal to old[:a]+v+old[b:], where a<=b are i and j clamped to [0,len] and swapped if out of order; Expand, Insert, Cut and Delete are the corresponding special cases: in particular Delete(i) removes exactly element i when 0<=i<len and nothing otherwise. Holds whatever the spare capacity of the slice.", "quantifier": "every slice (with any spare capacity and sharing), every pair of int indices, every argument list", "why_tests_cant": "append writes in place or reallocates depending on capacity, over memory it is still reading", "anchors": ["dsx/slicex/slicex.go:Splice", "dsx/slicex/slicex.go:Expand", "dsx/slicex/slicex.go:Insert", "dsx/slicex/slicex.go:Cut", "dsx/slicex/slicex.go:Delete"]}
{"id": "C22", "title": "Push/Pop and UnShift/Shift make a double-ended queue", "statement": "For every history of Push, Pop, UnShift and Shift, the Slice returns exactly what an abstract double-ended sequence returns; Pop/Shift on an empty Slice return the zero value and change nothing.", "quantifier": "every history, every capacity growth policy", "why_tests_cant": "histories are unbounded and in-place splicing is capacity dependent", "anchors": ["dsx/slicex/slicex.go:Push", "dsx/slicex/slicex.go:Pop", "dsx/slicex/slicex.go:UnShift", "dsx/slicex/slicex.go:Shift"]}
{"id": "C23", "title": "Copy is independent of the original", "statement": "The result of Copy() has the same elements as the original, and no later in-place write or append through either one is visible through the other.", "quantifier": "every slice, every later sequence of writes", "why_tests_cant": "aliasing is only visible through particular later writes", "anchors": ["dsx/slicex/slicex.go:Copy"]}
{"id": "C24", "title": "Reverse and Rotate permute positions exactly", "statement": "Reverse() puts element i at position len-1-i; Rotate(n) puts element (i+n) mod len at position i for every int n (negative n rotates the other way); neither panics and Rotate(-n) undoes Rotate(n).", "quantifier": "every slice, every int n", "why_tests_cant": "n ranges over int64 including its minimum", "anchors": ["dsx/slicex/slicex.go:Reverse", "dsx/slicex/slicex.go:Rotate"]}
{"id": "C25", "title": "Filter, IndexOf, Contains, Each and ForEach visit in order", "statement": "Filter(f) keeps exactly the elements satisfying f in their order; IndexOf(f) is the least index satisfying f or -1; Contains(f) holds exactly when some element satisfies f; Each/ForEach call f once per element in index order.", "quantifier": "every slice, every predicate/callback", "why_tests_cant": "quantifies over predicates; Filter compacts in place while reading", "anchors": ["dsx/slicex/slicex.go:Filter", "dsx/slicex/slicex.go:IndexOf", "dsx/slicex/slicex.go:Contains", "dsx/slicex/slicex.go:Each", "dsx/slicex/slicex.go:ForEach"]}
{"id": "C26", "title": "Split and Batch partition the slice", "statement": "For non-negative sizes, the pieces returned by Split(sizes...) concatenate to the original slice, piece k has size sizes[k] as long as elements remain, and a last piece holds any remainder; Batch(n) returns consecutive pieces of n elements (n<=0 counts as 1) with a shorter non-empty last piece, concatenating to the original.", "quantifier": "every slice, every list of sizes, every batch size", "why_tests_cant": "all sizes including ones that overflow int addition", "anchors": ["dsx/slicex/slicex.go:Split", "dsx/slicex/slicex.go:Batch"]}
{"id": "C27", "title": "Slice methods never panic on out-of-range arguments", "statement": "For every int argument, Extend, Slice, Set, Get, Splice, Expand, Insert, Cut, Delete, Push, Pop, Shift, UnShift, DeleteReplace, Rotate, Repeat and Batch return normally.", "quantifier": "every slice, every int argument", "why_tests_cant": "the failing arguments are single points of a 64-bit domain", "anchors": ["dsx/slicex/slicex.go:DeleteReplace", "dsx/slicex/slicex.go:Repeat", "dsx/slicex/slicex.go:Rotate", "dsx/slicex/slicex.go:Extend", "dsx/slicex/slicex.go:preprocIndexException"]}
{"id": "C28", "title": "Slice, Extend, Clear, Repeat and DeleteReplace have their list meaning", "statement": "Slice(i,j) keeps the clamped window (negative j counts from the end); Extend(n) appends max(n,0) zero values; Clear empties; Repeat(n) for n>=0 is n-fold concatenation; DeleteReplace(i) for 0<=i<len moves the last element into position i and shortens by one.", "quantifier": "every slice, every in-domain int argument", "why_tests_cant": "all int arguments", "anchors": ["dsx/slicex/slicex.go:Slice", "dsx/slicex/slicex.go:Extend", "dsx/slicex/slicex.go:Clear", "dsx/slicex/slicex.go:Repeat", "dsx/slicex/slicex.go:DeleteReplace"]}
{"id": "C29", "title": "Shuffle is a permutation", "statement": "Shuffle() leaves the slice a permutation of its old content, whatever the random source returns.", "quantifier": "every slice, every sequence of random draws", "why_tests_cant": "random source is unbounded", "anchors": ["dsx/slicex/slicex.go:Shuffle"]}
{"id": "C30", "title": "Splice leaves its argument slice's memory alone", "statement": "Calling Splice(i,j,v...) with an existing slice v changes no memory reachable from the caller's other slices that share v's backing array.", "quantifier": "every argument slice with any spare capacity and aliasing", "why_tests_cant": "needs an argument slice with spare capacity and a second live view of it", "anchors": ["dsx/slicex/slicex.go:Splice", "dsx/slicex/slicex.go:Expand"]}
{"id": "C31", "title": "Join separates every element exactly once", "statement": "Join(sep) is the concatenation of the renderings of the elements in order with sep between each two neighbours and none at the ends.", "quantifier": "every slice, every separator, every rendering function", "why_tests_cant": "all lengths", "anchors": ["dsx/slicex/slicex.go:Join"]}
{"id": "C32", "title": "Bit set operations act on exactly the named bits", "statement": "For every word width, Set/Clear/Toggle with a list of non-negative indices set/clear/flip exactly the bits named (Toggle flips by parity of occurrences; indices at or above the width are ignored), leave all other bits alone, and Test(is...) is true exactly when at least one named in-range bit is set; a negative index panics (in Test: unless an index before it already hit).", "quantifier": "every width, every word, every index list", "why_tests_cant": "2^64 words times all index lists", "anchors": ["dsx/setx/bitsetx/bitsetx.go:Set", "dsx/setx/bitsetx/bitsetx.go:Clear", "dsx/setx/bitsetx/bitsetx.go:Toggle", "dsx/setx/bitsetx/bitsetx.go:Test"]}
{"id": "C33", "title": "Whole-set operations are exact", "statement": "IsEmpty/IsFull hold exactly when no/every bit below the width is set; ClearAll/SetAll make them so; ToggleAll flips every bit and is its own inverse.", "quantifier": "every width, every word", "why_tests_cant": "2^64 words", "anchors": ["dsx/setx/bitsetx/bitsetx.go:IsEmpty", "dsx/setx/bitsetx/bitsetx.go:IsFull", "dsx/setx/bitsetx/bitsetx.go:ClearAll", "dsx/setx/bitsetx/bitsetx.go:SetAll", "dsx/setx/bitsetx/bitsetx.go:ToggleAll"]}
{"id": "C34", "title": "Option and Result Match dispatch on construction", "statement": "Some(x).Match(f,g) runs only f, on x, and returns its result; None().Match(f,g) runs only g; Ok(x)/Err(e).Match likewise run exactly one branch with the stored payload.", "quantifier": "every payload, every pair of callbacks", "why_tests_cant": "quantifies over callbacks", "anchors": ["functionalx/optionx/optionx.go:Match", "functionalx/resultx/resultx.go:Match"]}
{"id": "C35", "title": "Lazy constructs once", "statement": "For any number of goroutines calling Get with any interleaving, the constructor starts at most once, no Get returns before it has finished, and all Gets that return after it returned normally give the same value: the one it produced.", "quantifier": "every number of goroutines, every schedule, every constructor outcome (including panic)", "why_tests_cant": "schedules cannot be enumerated", "anchors": ["functionalx/lazyx/lazy.go:Get"]}
{"id": "C36", "title": "Typed pool never hands one object to two holders", "statement": "As long as callers Put only objects they hold and stop using them afterwards, Get never returns an object that is currently held by another caller; every object returned by Get was produced by the Init constructor or Put earlier; Get on a pool with no Init and nothing stored panics.", "quantifier": "every history of Get/Put, every choice made by the runtime pool (reuse, drop, create)", "why_tests_cant": "the runtime pool's choices are nondeterministic", "anchors": ["syncx/syncpoolx/syncpoolx.go:Init", "syncx/syncpoolx/syncpoolx.go:Get", "syncx/syncpoolx/syncpoolx.go:Put"]}
{"id": "C37", "title": "Lock runs the callback under mutual exclusion and terminates", "statement": "For any number of goroutines calling lockx.Lock(l,f), at most one f runs at a time for a given l, every call eventually can run f and return when scheduled fairly, and the protected word is restored.", "quantifier": "every schedule, every number of goroutines, every initial content of the locked variable", "why_tests_cant": "schedules and memory contents cannot be enumerated", "anchors": ["syncx/lockx/lockx.go:Lock"]}
{"id": "C38", "title": "Fixed-period truncation is a floor", "statement": "For every timestamp, TruncateSec/Min/Hour/Day/Week return the greatest multiple of the period (counted from 0001-01-01 UTC, so weeks start on Monday) that is <= the timestamp; hence result <= sec < result+period, truncation is idempotent and monotone, and nested periods compose (day of hour is day).", "quantifier": "every int64 second within time.Time's exact range", "why_tests_cant": "2^64 timestamps, negative ones included", "anchors": ["timex/truncatex/truncatex.go:Truncate", "timex/truncatex/truncatex.go:TruncateWeek", "timex/truncatex/truncatex.go:TruncateDay", "timex/truncatex/truncatex.go:TruncateHour", "timex/truncatex/truncatex.go:TruncateMin", "timex/truncatex/truncatex.go:TruncateSec"]}
{"id": "C39", "title": "Truncate with an arbitrary period is a floor", "statement": "Truncate(sec,n) for every n>0 returns the greatest time <= sec that is a whole multiple of n seconds since 0001-01-01 UTC.", "quantifier": "every int64 sec and n", "why_tests_cant": "the multiplication by time.Second can overflow", "anchors": ["timex/truncatex/truncatex.go:Truncate"]}
{"id": "C40", "title": "Calendar truncation finds the start of the year and of the month", "statement": "TruncateYear/TruncateMonth return the first second (UTC, proleptic Gregorian) of the year/month containing the timestamp: result <= sec, sec is before the next year/month start, and both are idempotent.", "quantifier": "every timestamp in range", "why_tests_cant": "leap-year rules interact with 400-year cycles and negative times", "anchors": ["timex/truncatex/truncatex.go:TruncateYear", "timex/truncatex/truncatex.go:TruncateMonth"]}
{"id": "C41", "title": "A sleeper admits one sleeping call at a time", "statement": "For any interleaving of SleepFor/SleepUntil/SleepForever/Wakeup calls from any number of goroutines, at most one call is sleeping at any time, a call made while another sleeps returns false at once, and the sleeper can be used again after a sleep returns.", "quantifier": "every schedule, every number of goroutines", "why_tests_cant": "schedules cannot be enumerated", "anchors": ["timex/sleepx/sleepx.go:SleepFor", "timex/sleepx/sleepx.go:SleepUntil", "timex/sleepx/sleepx.go:SleepForever"]}
{"id": "C42", "title": "Wakeup wakes the sleeper", "statement": "Whenever Wakeup returns true, the call that was sleeping (or about to sleep) is woken, i.e. its wait is over; Wakeup with no sleeper returns false and has no effect.", "quantifier": "every schedule of sleepers and wakers", "why_tests_cant": "needs an unlucky interleaving", "anchors": ["timex/sleepx/sleepx.go:Wakeup", "timex/sleepx/sleepx.go:SleepForever"]}
{"id": "C43", "title": "SleepFor waits for the given duration", "statement": "SleepFor(d) arms its timer with exactly the duration d.", "quantifier": "every time.Duration", "why_tests_cant": "long durations cannot be waited for in tests", "anchors": ["timex/sleepx/sleepx.go:SleepFor"]}
{"id": "C44", "title": "Intersection results are sound", "statement": "If Intersection(intervals...) reports ok for two or more intervals with non-negative bands and no int64 overflow, then its first result is <= its second result, and there is a number of faults F smaller than half the intervals such that at least M-F of the intervals contain each returned bound and at most F interval midpoints lie outside the returned range.", "quantifier": "every list of intervals, every order in which the sort leaves equal offsets", "why_tests_cant": "all interval lists; ties are ordered by an unstable sort", "anchors": ["timex/intersectionx/intersectionx.go:Intersection", "timex/intersectionx/intersectionx.go:intersection"]}
{"id": "C45", "title": "Intersection finds a full agreement", "statement": "If all M>=2 intervals overlap in a range of positive length strictly containing every midpoint, Intersection returns exactly (largest lower bound, smallest upper bound, true); with no interval it returns ok=false and with one interval it returns its two bounds.", "quantifier": "every list of intervals in strict general position", "why_tests_cant": "all interval lists", "anchors": ["timex/intersectionx/intersectionx.go:Intersection", "timex/intersectionx/intersectionx.go:intersection"]}
{"id": "C46", "title": "Intersection does not depend on argument order or ties", "statement": "Intersection gives the same answer for every order of its arguments, and any set of identical intervals intersects in that interval.", "quantifier": "every permutation of every list of intervals", "why_tests_cant": "ties between equal offsets are resolved by the sort, not by the algorithm", "anchors": ["timex/intersectionx/intersectionx.go:Intersection", "timex/intersectionx/intersectionx.go:Less", "timex/intersectionx/intersectionx.go:intersection"]}
{"id": "C47", "title": "Differ measures between the last Start and the last End", "statement": "GetDiff returns the difference of the clock readings taken by the latest End and the latest Start, and GetStart/GetEnd return these readings, for every order and repetition of calls.", "quantifier": "every history of Start/End, every clock", "why_tests_cant": "histories and clocks are unbounded", "anchors": ["timex/diffx/diffx.go:Start", "timex/diffx/diffx.go:End", "timex/diffx/diffx.go:GetDiff"]}
{"id": "C48", "title": "Accepted jobs run exactly once", "statement": "For a pool without preheated workers, in every schedule of Run callers, workers, idle-worker collection and Stop, every value whose Run returned true is passed to the handler at most once, is never lost (it is queued to a live worker that nobody else will close or reuse until it is handled), and values whose Run returned false are never handled; no send on a closed channel and no double close happens.", "quantifier": "every schedule, every number of Run callers, every timing of idle collection and Stop", "why_tests_cant": "needs unlucky interleavings of four kinds of goroutine", "anchors": ["poolx/gopoolx/timedpool.go:Run", "poolx/gopoolx/timedpool.go:tworker", "poolx/gopoolx/timedpool.go:free", "poolx/gopoolx/timedpool.go:start"]}
{"id": "C49", "title": "Exactly-once also holds with preheated workers", "statement": "The exactly-once guarantee also holds for pools created with preheat > 0.", "quantifier": "every schedule, every preheat count", "why_tests_cant": "needs idle collection to win a race against goroutine start-up", "anchors": ["poolx/gopoolx/timedpool.go:start", "poolx/gopoolx/timedpool.go:tworker"]}
{"id": "C50", "title": "Worker count is bounded", "statement": "At every moment of every schedule Workers() <= maxWorkers and Workers() is the number of live worker goroutines.", "quantifier": "every schedule, every configuration accepted by NewTimedPool", "why_tests_cant": "schedules cannot be enumerated", "anchors": ["poolx/gopoolx/timedpool.go:Run", "poolx/gopoolx/timedpool.go:Workers", "poolx/gopoolx/timedpool.go:NewTimedPool", "poolx/gopoolx/timedpool.go:start"]}
{"id": "C51", "title": "A stopped pool accepts nothing and drains", "statement": "After Stop has taken effect every Run returns false, jobs accepted before still get handled, and once all goroutines have run to completion Workers() is 0.", "quantifier": "every schedule in which Stop is called once", "why_tests_cant": "schedules cannot be enumerated", "anchors": ["poolx/gopoolx/timedpool.go:Stop", "poolx/gopoolx/timedpool.go:free", "poolx/gopoolx/timedpool.go:Run"]}
{"id": "C52", "title": "Idle collection closes exactly the timed-out idle workers", "statement": "When the idle list is ordered by last-use time, one collection pass removes exactly the workers idle longer than the timeout and keeps the others in order; for any idle list it removes a prefix and loses no worker.", "quantifier": "every idle list, every clock reading", "why_tests_cant": "binary search boundaries over all list lengths", "anchors": ["poolx/gopoolx/timedpool.go:start"]}
{"id": "C53", "title": "Pool construction rejects every invalid configuration", "statement": "NewTimedPool returns a pool exactly when maxWorkers > 0, the handler is non-nil, idleTimeout > 0 and gcPeriod > 0, and otherwise the error of the first violated condition in that order; preheat never makes a pool start above maxWorkers.", "quantifier": "every argument tuple", "why_tests_cant": "all int64 configurations", "anchors": ["poolx/gopoolx/timedpool.go:NewTimedPool", "poolx/gopoolx/timedpool.go:start"]}
{"id": "C54", "title": "Kill-signal handling runs the handler and then closes the channel", "statement": "For every sequence of received signals the handler runs once per signal, the returned channel is closed after the first handler run and not before, and later signals are handled without crashing.", "quantifier": "every number of signals", "why_tests_cant": "tests do not send several signals to themselves", "anchors": ["osx/closex/closex.go:HandleKillSig"]}
{"id": "C55", "title": "Parameter applies options left to right", "statement": "Parameter(constructor, f1..fn) calls each option exactly once, in order, each on the previous one's result (nil first), and passes the last result to the constructor.", "quantifier": "every list of option functions", "why_tests_cant": "all lists of functions", "anchors": ["configx/optionalx/optionalx.go:Parameter"]}
{"id": "C56", "title": "usingx.Close closes everything after the body", "statement": "Close(cs...)(f) runs f first and then closes every closer once in argument order, even if f panics; if f returns it returns exactly the non-nil errors in that order (nil when there are none), and if f panics the panic propagates after the closers ran.", "quantifier": "every list of closers, every error pattern, f returning or panicking", "why_tests_cant": "all error patterns and panics", "anchors": ["iox/usingx/using.go:Close"]}
{"id": "C57", "title": "Decoupler delivers accepted writes intact and at most once", "statement": "In every interleaving of any number of writers with one reader, each payload shown to Next's view is exactly the payload of one accepted non-empty Write, no accepted Write is shown twice, none is overwritten before being shown, and the fill counter never under- or overflows.", "quantifier": "every number of concurrent writers, every schedule of their atomic steps, every payload", "why_tests_cant": "lock-free schedules cannot be enumerated", "anchors": ["iox/decouplex/decouple.go:Write", "iox/decouplex/decouple.go:Next"]}
{"id": "C58", "title": "Decoupler is a FIFO buffer for sequential use", "statement": "For sequential callers, Write on a buffer holding fewer than size payloads accepts (returns len(b)), Next shows payloads in the order written and returns false exactly when nothing is buffered.", "quantifier": "every size, every sequential history", "why_tests_cant": "needs histories with overflow followed by draining", "anchors": ["iox/decouplex/decouple.go:Write", "iox/decouplex/decouple.go:Next", "iox/decouplex/decouple.go:NewDecoupler"]}
{"id": "C59", "title": "Decoupler drops exactly when full", "statement": "A sequential Write calls the drop function exactly when the payload is empty or size payloads are buffered, and returns its result unchanged; dropping leaves buffered payloads intact and later Next calls still return.", "quantifier": "every size, every sequential history, every drop function", "why_tests_cant": "needs histories with overflow followed by draining", "anchors": ["iox/decouplex/decouple.go:Write", "iox/decouplex/decouple.go:Next"]}
{"id": "C60", "title": "CloseManager closes in registration order and reports every error", "statement": "Close() calls Close on every registered closer exactly once in registration order even if some fail, and AsErrs of its result is exactly the list of their non-nil errors in order; every later Close repeats this.", "quantifier": "every history of Append/Close, every error pattern", "why_tests_cant": "all error patterns and histories", "anchors": ["iox/managerx/closex/manager.go:Append", "iox/managerx/closex/manager.go:Close", "iox/managerx/closex/types.go:AsErrs"]}
{"id": "C61", "title": "CloseManager reports success as nil", "statement": "Close() returns a nil error exactly when no closer failed.", "quantifier": "every list of closers", "why_tests_cant": "typed-nil interface values look like nil when printed", "anchors": ["iox/managerx/closex/manager.go:Close"]}
{"id": "C62", "title": "Conversion registry returns the latest registration", "statement": "For every history of Register/Unregister over non-interface types, Exists[T,R] holds exactly when the latest such call for (T,R) was a Register, then Into[T,R](v) is (f(v),true) with the registered f, and otherwise (zero,false); IntoOr returns the alternative exactly when Into fails. Other type pairs are unaffected.", "quantifier": "every history, every pair of types, every value", "why_tests_cant": "histories over unboundedly many type pairs", "anchors": ["typex/convx/convx.go:Register", "typex/convx/convx.go:Unregister", "typex/convx/convx.go:Exists", "typex/convx/convx.go:Into", "typex/convx/convx.go:IntoOr"]}
{"id": "C63", "title": "Registrations for different types never collide", "statement": "Registering or unregistering a converter for one pair of types never changes Exists/Into for a different pair, for all types including interface types.", "quantifier": "every history, every pair of types including interfaces", "why_tests_cant": "needs two interface types", "anchors": ["typex/convx/convx.go:Register", "typex/convx/convx.go:Unregister", "typex/convx/convx.go:Exists", "typex/convx/convx.go:Into"]}
{"id": "C64", "title": "Integers survive the trip through strings", "statement": "For every fixed-size integer type T and every value x of T, converting x to string and back to T gives x; the string is the canonical decimal numeral of x.", "quantifier": "every width, every value", "why_tests_cant": "2^64 values", "anchors": ["typex/convx/converters.go:intToString", "typex/convx/converters.go:uintToString", "typex/convx/converters.go:stringToInteger", "typex/convx/converters.go:stringToUinteger"]}
{"id": "C65", "title": "String to integer conversion is total with a fixed default", "statement": "Converting any string to an integer type never fails: syntactically invalid strings give 0, numerals beyond 64 bits saturate at the 64-bit bound, and the result is then truncated to the target width.", "quantifier": "every string", "why_tests_cant": "all strings", "anchors": ["typex/convx/converters.go:stringToInteger", "typex/convx/converters.go:stringToUinteger"]}
{"id": "C66", "title": "Integer conversions are exact when the value fits", "statement": "Converting between integer types of any width and signedness gives the unique value of the target type congruent to the source modulo 2^width; hence it is exact whenever the value fits, widening round-trips, and bool/integer conversions satisfy b->int->bool = b and int->bool = (x != 0).", "quantifier": "every pair of widths and signednesses, every value", "why_tests_cant": "2^64 values times 100 type pairs", "anchors": ["typex/convx/converters.go:integerToInteger", "typex/convx/converters.go:boolToInteger", "typex/convx/converters.go:intToBool", "typex/convx/converters.go:boolToString", "typex/convx/converters.go:stringToBool"]}
{"id": "C67", "title": "Runes and bytes survive the trip through strings", "statement": "bytes->string->bytes is the identity for all byte sequences; runes->string->runes is the identity for every sequence of valid Unicode scalar values; string->runes->string is the identity exactly on valid UTF-8, and invalid bytes become U+FFFD.", "quantifier": "every byte sequence, every rune sequence", "why_tests_cant": "all byte sequences", "anchors": ["typex/convx/converters.go:stringToBytes", "typex/convx/converters.go:bytesToString", "typex/convx/converters.go:stringToRunes", "typex/convx/converters.go:runesToString"]}
{"id": "C68", "title": "Password hash records round-trip", "statement": "For every parameter, salt and hash, the serialized record validates and its Param/Salt/Hash accessors return exactly what was stored; its length is 17+len(salt)+len(hash).", "quantifier": "every parameter byte, every salt and hash byte sequence", "why_tests_cant": "all byte sequences", "anchors": ["cryptox/passhashx/internal/passhash.vstruct.go:New_PasswordHash", "cryptox/passhashx/internal/passhash.vstruct.go:Serialize_PasswordHash", "cryptox/passhashx/internal/passhash.vstruct.go:Vstruct_Validate", "cryptox/passhashx/internal/passhash.vstruct.go:Param", "cryptox/passhashx/internal/passhash.vstruct.go:Salt", "cryptox/passhashx/internal/passhash.vstruct.go:Hash"]}
{"id": "C69", "title": "Verify never panics on untrusted bytes", "statement": "For every byte sequence whatsoever, Vstruct_Validate returns normally, and if it returns true all accessors return normally; Verify returns an error or nil and never panics.", "quantifier": "every byte sequence", "why_tests_cant": "adversarial 64-bit offsets", "anchors": ["cryptox/passhashx/internal/passhash.vstruct.go:Vstruct_Validate", "cryptox/passhashx/internal/passhash.vstruct.go:Salt", "cryptox/passhashx/internal/passhash.vstruct.go:Hash", "cryptox/passhashx/passhash.go:Verify"]}
{"id": "C70", "title": "Verify accepts what Hash produced", "statement": "For every password, every valid security level and every salt drawn, Hash succeeds and Verify(password, result) is nil; an invalid level or a failing random source gives the documented error.", "quantifier": "every password, level, salt and KDF function", "why_tests_cant": "all passwords and salts", "anchors": ["cryptox/passhashx/passhash.go:Hash", "cryptox/passhashx/passhash.go:Verify", "cryptox/passhashx/alg.go"]}
{"id": "C71", "title": "Verify accepts exactly matching records", "statement": "Verify(password, rec) is nil exactly when rec validates, names a known algorithm, and that algorithm applied to password and the stored salt yields exactly the stored hash; in particular a password whose derived key differs is rejected with the mismatch error, and truncating the stored hash never helps.", "quantifier": "every password and every byte sequence", "why_tests_cant": "all byte sequences", "anchors": ["cryptox/passhashx/passhash.go:Verify"]}
{"id": "C72", "title": "Base64 form is equivalent to the binary form", "statement": "HashBase64 output uses only the URL-safe alphabet without padding, decodes to the binary record, and VerifyBase64(password, HashBase64(password)) is nil; a string with a character outside the alphabet is rejected with an error.", "quantifier": "every byte sequence, every password", "why_tests_cant": "all byte sequences", "anchors": ["cryptox/passhashx/passhash.go:HashBase64", "cryptox/passhashx/passhash.go:VerifyBase64"]}
{"id": "C73", "title": "CBC encryption round-trips on whole blocks", "statement": "For every key and every data whose length is a multiple of 16, DecryptCBC(EncryptCBC(data,key),key) = data and the ciphertext is 16 bytes longer; for other lengths Encrypt does not silently corrupt (it panics), and decrypting input shorter than the IV does not return.", "quantifier": "every key, data, IV and block cipher permutation", "why_tests_cant": "all data and keys", "anchors": ["cryptox/aesx/cbcx.go:EncryptCBC", "cryptox/aesx/cbcx.go:DecryptCBC"]}
{"id": "C74", "title": "CTR encryption round-trips on all data", "statement": "For every key and every data, DecryptCTR(EncryptCTR(data,key),key) = data and the ciphertext is 16 bytes longer.", "quantifier": "every key, data, IV and block function, including counter wrap-around", "why_tests_cant": "all data and keys", "anchors": ["cryptox/aesx/ctrx.go:EncryptCTR", "cryptox/aesx/ctrx.go:DecryptCTR"]}
{"id": "C75", "title": "GCM encryption round-trips and rejects what the AEAD rejects", "statement": "For every key and data, DecryptGCM(EncryptGCM(data,key),key) = data; DecryptGCM returns an error (and no data) exactly when the AEAD rejects nonce and ciphertext.", "quantifier": "every key, data, nonce", "why_tests_cant": "all data and keys", "anchors": ["cryptox/aesx/gcmx.go:EncryptGCM", "cryptox/aesx/gcmx.go:DecryptGCM"]}
{"id": "C76", "title": "Decryption of arbitrary input returns an error instead of panicking", "statement": "DecryptCBC, DecryptCTR and DecryptGCM return (data, nil) or (nil, error) for every input byte sequence.", "quantifier": "every byte sequence", "why_tests_cant": "short and ragged inputs from the network", "anchors": ["cryptox/aesx/cbcx.go:DecryptCBC", "cryptox/aesx/ctrx.go:DecryptCTR", "cryptox/aesx/gcmx.go:DecryptGCM"]}
{"id": "C77", "title": "bcrypt wrapper accepts exactly the encrypted password", "statement": "Encrypt rejects exactly the passwords longer than 72 bytes; for every other password Decrypt(Encrypt(pw),pw) is (true,nil); and two passwords that differ are never both accepted for the same record.", "quantifier": "every password pair", "why_tests_cant": "all passwords; the collision needs more than 72 bytes or embedded NULs", "anchors": ["cryptox/bcryptx/bcryptx.go:Encrypt", "cryptox/bcryptx/bcryptx.go:Decrypt"]}
{"id": "C78", "title": "Binary search finds the leftmost position", "statement": "On a sorted slice Search returns the number of elements smaller than x as index, and found exactly when x occurs; on any slice found=true implies the element at the index equals x and the index is within 0..len. SearchCustom does the same for any comparison consistent with the order of the slice.", "quantifier": "every slice, every target, every consistent comparison function", "why_tests_cant": "all lengths and contents", "anchors": ["algox/searchx/searchx.go:Search", "algox/searchx/searchx.go:SearchCustom"]}
{"id": "C79", "title": "Sorting sorts in the requested direction", "statement": "Sort(s,reverse) leaves s a permutation of its old content in ascending order if reverse is false and descending order if it is true; SortReverse/SortStable/SortStableReverse likewise, the stable ones keeping equal elements in their order; IsSorted/IsSortedReverse tell exactly whether s is ascending/descending.", "quantifier": "every slice, both directions, every correct sorting routine underneath", "why_tests_cant": "all slices", "anchors": ["algox/sortx/sortx.go:Sort", "algox/sortx/sortx.go:SortReverse", "algox/sortx/sortx.go:SortStable", "algox/sortx/sortx.go:IsSorted"]}
{"id": "C80", "title": "An idle pool accepts work", "statement": "When every accepted job is done, no Run is under way and the pool is not stopped, the next Run returns true (idle or collected workers never use up the pool's capacity).", "quantifier": "every schedule, every preheat count", "why_tests_cant": "needs idle collection to win a race against goroutine start-up", "anchors": ["poolx/gopoolx/timedpool.go:Run", "poolx/gopoolx/timedpool.go:start", "poolx/gopoolx/timedpool.go:tworker"]}
{"id": "C81", "title": "Every Stop call returns", "statement": "Every call of Stop can return, whatever the collector is doing and whoever else calls Stop.", "quantifier": "every schedule of any number of Stop calls", "why_tests_cant": "needs concurrent Stop calls", "anchors": ["poolx/gopoolx/timedpool.go:Stop", "poolx/gopoolx/timedpool.go:start"]}
{"id": "C82", "title": "Decoupler: Next returns once all writers have returned", "statement": "When something is buffered and no Write call is under way, a call to Next shows a payload and returns instead of waiting.", "quantifier": "every size, every number of writers, every schedule", "why_tests_cant": "needs a compare-and-swap lost at a particular moment", "anchors": ["iox/decouplex/decouple.go:Next", "iox/decouplex/decouple.go:Write"]}
{"id": "C83", "title": "One text form per password record", "statement": "A string accepted by VerifyBase64 is the base64 encoding of the record it decodes to; the text form of a record cannot be changed without the change being noticed.", "quantifier": "every string", "why_tests_cant": "needs a different last character or newlines", "anchors": ["cryptox/passhashx/passhash.go:VerifyBase64", "cryptox/passhashx/passhash.go:HashBase64"]}
{"id": "C84", "title": "Counter modes do not reuse counter blocks and notice changes", "statement": "Within one CTR or GCM message no counter block is used twice, and GCM's data blocks never use the counter of the tag or of the hash key; and a ciphertext changed on the way is not decrypted without an error.", "quantifier": "every IV, nonce, message and change", "why_tests_cant": "needs messages near the wrap-around, and all changes", "anchors": ["cryptox/aesx/ctrx.go:EncryptCTR", "cryptox/aesx/ctrx.go:DecryptCTR", "cryptox/aesx/gcmx.go:EncryptGCM"]}
{"id": "C85", "title": "Every pair of basic types has a converter from the start", "statement": "After the package is initialised, Exists holds for every pair of the numeric types, string and bool, for string/[]byte and string/[]rune in both directions and for []byte and []rune with themselves, and for no other pair of these types; Into gives the value the pair of types calls for (congruent integer, nearest float, truncated float, numeral, and so on). Calls of Register and Unregister for other pairs, interface types included, do not change this.", "quantifier": "All pairs of the 16 types, all values, all histories of further calls for other pairs, 32 and 64 bit int.", "why_tests_cant": "202 registrations written by hand: a slip in one line shows only for one pair of types, and the later history of the registry is unbounded.", "anchors": ["typex/convx/init.go:3-206", "typex/convx/converters.go:9-101", "typex/convx/convx.go:11-67"]}
{"id": "C86", "title": "Integers survive the trip through floats", "statement": "Converting an integer to a float type and back gives the integer; the float is the one nearest to the integer, order is kept; converting a float to an integer type drops the fraction when the result fits; float32 to float64 and back is the identity; booleans become 1 and 0, and every float but the zeros becomes true.", "quantifier": "All integers of all widths, all floats of both formats, any behaviour for values that do not fit.", "why_tests_cant": "Rounding errors start beyond 2^53 (2^24), at ties and at the edges of the range; samples miss them.", "anchors": ["typex/convx/converters.go:9-11", "typex/convx/converters.go:60-69"]}
{"id": "C87", "title": "Floats survive the trip through strings and decimals are rounded once", "statement": "Converting a float to a string and back gives the same float, infinities and NaN included; converting a decimal to a float type gives the float of that type nearest to it.", "quantifier": "All floats of both formats, all decimals of any length, every library that meets the documentation of strconv.", "why_tests_cant": "Double rounding shows only for decimals within 2^-53 of the middle between two float32 values.", "anchors": ["typex/convx/converters.go:21-23", "typex/convx/converters.go:35-38"]}
{"id": "C88", "title": "An ordered map can be changed while Range goes through it", "statement": "Range does not panic whatever its callback does to the map; every visited entry is in the map at that moment, with its current value; keys ascend; an entry that was there at the start and is not deleted before its turn is visited, and so is an entry added ahead of the loop; nothing is visited after stop. Deleting entries on the way leaves exactly the others.", "quantifier": "All ordered key types, all maps (histories of Set, Del, Clear), all callbacks with any state, all skip list heights.", "why_tests_cant": "The callback and the map are unbounded, and what happens depends on whether the removed node is the one the iterator stands on and what was inserted around it afterwards.", "anchors": ["dsx/mapx/ordmapx/ordmapx.go:65-76", "dsx/mapx/sklmapx/sklmapx.go:213-225"]}
{"id": "C89", "title": "A slice can be changed while its loops go through it", "statement": "Each, ForEach, IndexOf, Contains and Iterate call the callback once for each element the slice had when they started, in order and with its value, also when the callback changes the slice; they always end; Filter keeps the elements for which the callback returned true.", "quantifier": "All slices (any sharing of memory, any growth of append), all callbacks with any state making any calls of Push, Pop, Shift, UnShift, Insert, Delete, Set, Reverse, Clear.", "why_tests_cant": "Depends on the capacity at the time of the call: the same program sees different elements when append moves the slice.", "anchors": ["dsx/slicex/slicex.go:145-155", "dsx/slicex/slicex.go:207-235", "dsx/slicex/listx/listx.go:38-44"]}
{"id": "C90", "title": "The registry of converters is safe for concurrent use", "statement": "No goroutine accesses the map of converters while another one changes it; every lookup answers with the newest registration; the registry does not change while a converter runs; each call takes effect once, in program order; all calls end, also calls that converters make.", "quantifier": "All numbers of goroutines, all programs of Register, Unregister, Exists and Into calls, all converters with any nested calls, all schedules.", "why_tests_cant": "Schedules are unbounded, and whether nested read locks block depends on a writer arriving in between.", "anchors": ["typex/convx/convx.go:8-59"]}
{"id": "C91", "title": "A close manager is safe for concurrent use", "statement": "A Close closes exactly the closers appended before it, each once and in the order of Append, with no Append or Close of the same manager in between; calls follow the programs of the goroutines and of the closers; all calls end, also when closers use managers.", "quantifier": "All numbers of goroutines and managers, all programs of Append and Close calls, all closers with any nested calls, all schedules.", "why_tests_cant": "Managers can be nested to any depth and be shared by any number of goroutines; deadlocks depend on the schedule.", "anchors": ["iox/managerx/closex/manager.go:14-40"]}
{"id": "C92", "title": "Lazy values can be built from lazy values", "statement": "For lazies whose constructors get other lazies, concurrently from any number of goroutines: each constructor runs at most once, every Get returns the value the definitions give, and every Get ends.", "quantifier": "All families of lazies (any dependencies and constructors), all programs of Get calls, all schedules.", "why_tests_cant": "Dependencies and schedules are unbounded; the deadlocks of cyclic families depend on the schedule.", "anchors": ["functionalx/lazyx/lazy.go:5-23"]}
{"id": "C93", "title": "A view that panics does not damage the Decoupler", "statement": "If the function given to Next panics and the caller recovers, the Decoupler is in a state that calls which do not panic could have led to: accepted writes are still delivered intact, and the write whose view panicked is shown again by the next Next.", "quantifier": "All schedules of any number of writers and a reader, all moments of panics, as long as fewer than 2^64-2 tickets were taken.", "why_tests_cant": "A panic can come at any point of any schedule.", "anchors": ["iox/decouplex/decouple.go:Next"]}
{"id": "C94", "title": "A closer that panics does not keep the others open", "statement": "If a closer panics and the caller recovers, every other closer of the manager (or of usingx.Close) is closed exactly once, and the manager can be used again.", "quantifier": "All lists of closers, all positions of panics, all errors, any number of Close calls.", "why_tests_cant": "Which closers are left open depends on the position of the panic and on deferred calls.", "anchors": ["iox/managerx/closex/manager.go:Close", "iox/usingx/using.go:Close"]}
{"id": "C95", "title": "A callback that panics does not damage the slice", "statement": "If the callback of Filter, IndexOf, Contains, Each or ForEach panics and the caller recovers, the slice has the elements it had before, and no other memory was written.", "quantifier": "All slices over all memory, all callbacks, all positions of the panic.", "why_tests_cant": "The damage depends on how many elements were dropped before the panic.", "anchors": ["dsx/slicex/slicex.go:Filter"]}
{"id": "C96", "title": "A call that panics does not block the concurrent map", "statement": "For every comparable key type, interface types included: if a call panics because its key cannot be hashed and the caller recovers, every call that does not panic itself can return.", "quantifier": "All schedules of any number of goroutines, all sets of keys that cannot be hashed.", "why_tests_cant": "Whether a call blocks depends on what every other goroutine did before; a blocked call cannot be told from a slow one.", "anchors": ["dsx/mapx/syncmapx/syncmapx.go:Get", "dsx/mapx/syncmapx/syncmapx.go:Has", "dsx/mapx/syncmapx/syncmapx.go:Set", "dsx/mapx/syncmapx/syncmapx.go:Delete"]}
{"id": "C97", "title": "The skip list loses nothing, whatever the keys", "statement": "For all keys in constraints.Ordered, NaN included, and even for comparisons that contradict each other: no call panics or hangs; Set adds one entry or replaces the value of one with an equal key; Del removes one entry with an equal key or none; all other entries stay where they are; Keys, Values, Len and the iterator show the same entries.", "quantifier": "All comparisons, all histories, all seeds.", "why_tests_cant": "With NaN the outcome of a search depends on the random heights; the claim is about every shape of the list.", "anchors": ["dsx/mapx/sklmapx/sklmapx.go:search", "dsx/mapx/sklmapx/sklmapx.go:insert", "dsx/mapx/sklmapx/sklmapx.go:delete"]}
{"id": "C98", "title": "The ordered map lists the keys it has, whatever the keys", "statement": "For all keys in constraints.Ordered, NaN included: Get gives the latest value set under an equal key, and Keys lists the keys that Get finds.", "quantifier": "All symmetric and transitive ==, all <, all histories, all seeds.", "why_tests_cant": "The two halves of the map are searched in different ways, and NaN makes them disagree.", "anchors": ["dsx/mapx/ordmapx/ordmapx.go:Set", "dsx/mapx/ordmapx/ordmapx.go:Del", "dsx/mapx/ordmapx/ordmapx.go:Keys", "dsx/mapx/ordmapx/ordmapx.go:Values", "dsx/mapx/ordmapx/ordmapx.go:Range"]}
{"id": "C99", "title": "The concurrent map finds the keys it lists", "statement": "For all comparable keys, those with k != k included: Has finds what Keys lists, and Get gives the latest value set under an equal key.", "quantifier": "All symmetric and transitive ==, all histories.", "why_tests_cant": "Keys with k != k hide in structs, arrays and interfaces.", "anchors": ["dsx/mapx/syncmapx/syncmapx.go:Set", "dsx/mapx/syncmapx/syncmapx.go:Delete", "dsx/mapx/syncmapx/syncmapx.go:Keys", "dsx/mapx/syncmapx/syncmapx.go:Has"]}
{"id": "C100", "title": "A deque used at one end is a stack", "statement": "For all histories of PushFront, PopFront and PeekFront only, and for all histories of PushBack, PopBack and PeekBack only, emptying included, the linked deque gives the results of a stack.", "quantifier": "All histories at one end, all element types, all nodes the pool may hand out.", "why_tests_cant": "A wrong result needs an emptied deque and a recycled node from a longer chain; sync.Pool makes that depend on the garbage collector.", "anchors": ["dsx/linkedx/dequex/dequex.go:PushFront", "dsx/linkedx/dequex/dequex.go:PopFront", "dsx/linkedx/dequex/dequex.go:PushBack", "dsx/linkedx/dequex/dequex.go:PopBack"]}
{"id": "C101", "title": "autotidy and autoupdate run once in every directory", "statement": "For every directory tree, the go command runs exactly once in every directory that is not in or below one named vendor or .git, with that directory as its working directory.", "quantifier": "All directory trees, all permissions.", "why_tests_cant": "The results of Chdir and the error given to the callback are thrown away; what happens then depends on permissions and on how WalkDir reports errors.", "anchors": ["cmd/autotidy/autotidy.go:main", "cmd/autoupdate/autoupdate.go:main"]}
{"id": "C102", "title": "autotidy and autoupdate keep out of vendor and .git", "statement": "For every directory tree, no command runs in or below a directory named vendor or .git, or outside the tree, and the process ends in the directory it was started in.", "quantifier": "All directory trees, all permissions.", "why_tests_cant": "A failed Chdir is ignored, so a command may run in a directory it was not meant for; a test shows this for the trees it tries.", "anchors": ["cmd/autotidy/autotidy.go:main", "cmd/autoupdate/autoupdate.go:main"]}
{"id": "C103", "title": "The pool of goroutines has no data races", "statement": "In no execution are two goroutines about to use the same field of the pool or of a worker, one of them writing it, without both holding the mutex.", "quantifier": "Every size and number of preheated workers, any number of concurrent Run and Stop calls, every schedule.", "why_tests_cant": "The race detector reports the races of the schedules it sees; the collector must come by in the short time before a new goroutine reads its channel.", "anchors": ["poolx/gopoolx/timedpool.go:tworker", "poolx/gopoolx/timedpool.go:start", "poolx/gopoolx/timedpool.go:free", "poolx/gopoolx/timedpool.go:Run", "poolx/gopoolx/timedpool.go:Stop"]}
{"id": "C104", "title": "The Decoupler hands over copies", "statement": "The bytes a view reads are the bytes the slice had when Write was called, even if the caller changes its slice after Write has returned, the view writes to bytes it has read, and other goroutines write to other slots meanwhile; no byte is used by two goroutines at a time; the slice given to a view keeps its bytes after the view has returned.", "quantifier": "Every size, any number of writers and payloads, every interleaving of single bytes, every growth of the slots.", "why_tests_cant": "The slots reuse their memory; a torn payload needs an unlucky schedule, and a kept slice changes only when the slot is used again.", "anchors": ["iox/decouplex/decouple.go:Write", "iox/decouplex/decouple.go:Next"]}
{"id": "C105", "title": "Iterate of the linked list with callbacks that change the list", "statement": "When Iterate is over and the callback did not stop it, all elements that were there at the start and are still there were handed out, in order and each once, whatever the callback did to the list; in particular a callback that removes the elements it does not like sees every element once and leaves exactly the others.", "quantifier": "Every history of the list, every behaviour of the node pool, every callback with a state of its own that calls the methods of the list, any number of rounds.", "why_tests_cant": "The loop reads next of a node that may be in the pool or in use again; what it finds depends on the pool and on all calls since.", "anchors": ["dsx/linkedx/listx/listx.go:Iterate", "dsx/linkedx/listx/listx.go:Remove", "dsx/linkedx/listx/listx.go:Append"]}
{"id": "C106", "title": "Concurrent map with any key type: linearizable, race free, every call returns", "statement": "With any number of goroutines and any key type, also one with keys that do not equal themselves, every history of syncmapx is linearizable: each call acts at one moment on the history of Set, Delete and Clear before it, Keys, Values and Size counting a key that does not equal itself once per Set. No goroutine accesses the map while another modifies it, and without new calls every execution ends with all calls returned.", "quantifier": "Every key type with symmetric and transitive ==, every number of goroutines, every schedule, every order of range.", "why_tests_cant": "The race detector and tests see a few schedules with keys that equal themselves; entries under NaN can be duplicated and are only seen by range loops.", "anchors": ["dsx/mapx/syncmapx/syncmapx.go:Get", "dsx/mapx/syncmapx/syncmapx.go:Keys", "dsx/mapx/syncmapx/syncmapx.go:Values", "dsx/mapx/syncmapx/syncmapx.go:Size", "dsx/mapx/syncmapx/syncmapx.go:Set", "dsx/mapx/syncmapx/syncmapx.go:Delete", "dsx/mapx/syncmapx/syncmapx.go:Clear"]}
{"id": "C107", "title": "Idle workers are stopped when their time has come", "statement": "A pass of the collector stops exactly those workers in the idle list whose handler returned longer ago than the idle timeout; it never stops a worker that has a job.", "quantifier": "Every execution of the pool with a clock that does not go back: any number of workers, jobs, Stop calls, any schedule, any timeout.", "why_tests_cant": "Which worker reaches the lock first after stamping itself is up to the scheduler; the list is searched as if it were ordered by the stamps.", "anchors": ["poolx/gopoolx/timedpool.go:start", "poolx/gopoolx/timedpool.go:free"]}
{"id": "C108", "title": "The Decoupler with several readers", "statement": "However many goroutines call Next: every payload is shown at most once and as it was given, and what was accepted and not yet shown lies intact in a slot of its own.", "quantifier": "Every execution with any number of writers and readers, any size, any payloads, up to 2^64-2 attempts.", "why_tests_cant": "The losses need two readers between the load of the slot and its release at the same time, and a writer in between.", "anchors": ["iox/decouplex/decouple.go:Write", "iox/decouplex/decouple.go:Next"]}
{"id": "C109", "title": "Intersection finds the agreement of any majority", "statement": "For intervals whose edges and midpoints do not coincide, Intersection reports the range from the first to the last point that lies in all but F of the intervals, for the smallest F for which at most F midpoints lie outside; it reports none only if there is no such F that leaves a majority.", "quantifier": "every list of two or more intervals with non-negative bands, no int64 overflow and no coinciding edges or midpoints of different kinds", "why_tests_cant": "all interval lists and fault numbers; whether the loop over the faults goes far enough shows only for odd numbers of intervals with exactly half of them at fault, rounded down", "anchors": ["timex/intersectionx/intersectionx.go:Intersection", "timex/intersectionx/intersectionx.go:intersection"]}
{"id": "C110", "title": "Clear empties a skip-list map for its iterators too", "statement": "After Clear, and whatever is then set and deleted, Next gives the smallest key now in the map after the key the iterator stands on, or ok = false if there is none.", "quantifier": "every history before and after Clear, every position of the iterator, every totally ordered key type", "why_tests_cant": "the iterator walks nodes that are no longer in the map, and tells the end by an address that Clear replaced", "anchors": ["dsx/mapx/sklmapx/sklmapx.go:Clear", "dsx/mapx/sklmapx/sklmapx.go:Next"]}
{"id": "C111", "title": "The pieces of Split and Batch can be used separately", "statement": "After Split or Batch, a method call on one of the pieces leaves the elements of every other piece as they were.", "quantifier": "every slice, every list of sizes, every sequence of method calls on the pieces, every growth policy of append", "why_tests_cant": "the pieces share one array; whether a call writes into a neighbour depends on capacities, not on the elements a test compares", "anchors": ["dsx/slicex/slicex.go:Split", "dsx/slicex/slicex.go:Batch"]}
{"id": "C112", "title": "The Decoupler keeps the order of one producer", "statement": "With one goroutine that writes and one that reads, and no payload dropped, the payloads are shown in the order in which they were written; Next does not wait once the writes have returned; and when Next returns false everything written has been shown.", "quantifier": "every size, every sequence of payloads, every interleaving of producer and reader", "why_tests_cant": "the failure needs the reader to make room between two steps of one Write", "anchors": ["iox/decouplex/decouple.go:Write", "iox/decouplex/decouple.go:Next"]}
{"id": "C113", "title": "A Sleeper can be shared by goroutines without data races", "statement": "No two goroutines using one Sleeper are ever about to access the same non-atomic field with one of them writing it.", "quantifier": "every number of goroutines, every interleaving of SleepFor, SleepUntil, SleepForever and Wakeup", "why_tests_cant": "the window is between two adjacent instructions; the race detector only sees the schedules that are run", "anchors": ["timex/sleepx/sleepx.go:Wakeup", "timex/sleepx/sleepx.go:SleepFor"]}
{"id": "C114", "title": "Custom is the instant of the given Unix time", "statement": "Custom(sec, nsec) is the instant sec seconds and nsec nanoseconds after 1970-01-01 UTC, for negative numbers and numbers of more than a second too.", "quantifier": "every two int64 numbers", "why_tests_cant": "the carry between the two numbers and the range cannot be gone through by examples", "anchors": ["timex/timex.go:Custom"]}
{"id": "C115", "title": "SleepUntil sleeps until the instant has come", "statement": "A call of SleepUntil(t) that nobody wakes returns when t has come, not before, and its timer does not run on once it has.", "quantifier": "every time, every reading of the clock, with or without monotonic readings", "why_tests_cant": "the failing instants are centuries ahead", "anchors": ["timex/sleepx/sleepx.go:SleepUntil", "timex/timex.go:Now"]}
{"id": "C116", "title": "CBC decryption notices changes", "statement": "A message written by EncryptCBC that was changed on its way is not decrypted to other data as if nothing had happened.", "quantifier": "every block cipher, every key, every message and every change that keeps its length", "why_tests_cant": "a statement about all messages an attacker can write", "anchors": ["cryptox/aesx/cbcx.go:DecryptCBC", "cryptox/aesx/cbcx.go:EncryptCBC"]}
{"id": "C117", "title": "A converted slice belongs to the caller", "statement": "A slice that a conversion returns shares no memory with any slice the program has: what is written through the one is not seen through the other.", "quantifier": "every memory, every string and slice, every surplus of capacity, every sequence of writes and appends", "why_tests_cant": "a test sees one capacity and the writes it makes", "anchors": ["typex/convx/converters.go:bytesToBytes", "typex/convx/converters.go:stringToBytes"]}
{"id": "C118", "title": "The zero value of a container is an empty container", "statement": "A container that was declared and not made by its constructor shows, for every sequence of calls, what an empty one made by New shows.", "quantifier": "every sequence of calls on each container, with panics recovered, every choice of the pools, every growth of a slice", "why_tests_cant": "tests use New; a declared container shows its faults only on the calls that need what New sets up", "anchors": ["dsx/linkedx/queuex/queuex.go:New", "dsx/linkedx/dequex/dequex.go:New", "dsx/linkedx/stackx/stackx.go:New", "dsx/linkedx/listx/listx.go:New", "dsx/slicex/queuex/queuex.go:New", "dsx/slicex/stackx/stackx.go:New", "dsx/mapx/syncmapx/syncmapx.go:New", "dsx/mapx/sklmapx/sklmapx.go:New", "dsx/mapx/ordmapx/ordmapx.go:New"]}
{"id": "C119", "title": "The implementations of a dsx interface are interchangeable", "statement": "A program over dsx.Stack or dsx.List sees the same results with the linked and with the slice implementation, and one over dsx.Queue the same with the linked queue as with a ring that has room for all its elements.", "quantifier": "every sequence of interface calls, every choice of the pools, every growth of a slice, every memory, every capacity of the ring", "why_tests_cant": "a test runs one program against one implementation; which programs can tell them apart is a statement about all programs", "anchors": ["dsx/dsx.go:Stack", "dsx/dsx.go:Queue", "dsx/dsx.go:List", "dsx/linkedx/stackx/stackx.go:New", "dsx/slicex/stackx/stackx.go:New", "dsx/linkedx/queuex/queuex.go:New", "dsx/slicex/queuex/queuex.go:New", "dsx/linkedx/listx/listx.go:New", "dsx/slicex/listx/listx.go:New"]}
{"id": "C120", "title": "Close managers in close managers close everything and report exactly the failures", "statement": "Close of a manager with managers registered returns, has called every closer below it in order of registration, and its error list has exactly the errors of those closers; usingx.Close over managers returns nil when nothing failed.", "quantifier": "all registrations of closers and managers with managers, cyclic ones included, all effects and results of the closers, all error texts", "why_tests_cant": "tests close one manager with plain closers; nesting, sharing and cycles of managers are a property of the graph", "anchors": ["iox/managerx/closex/manager.go:Close", "iox/managerx/closex/manager.go:Append", "iox/managerx/closex/types.go:Error", "iox/managerx/closex/types.go:AsErrs", "iox/usingx/using.go:Close"]}
{"id": "C121", "title": "After sorting, Search finds exactly what is in the slice", "statement": "After each of Sort, SortReverse, SortStable and SortStableReverse, Search reports an element as found exactly when it was in the slice before sorting.", "quantifier": "all slices over a linear order, all elements searched for, all sorting routines that keep their promise, both flags", "why_tests_cant": "tests sort and search separately on fixed slices; that the two fit together for every slice and direction is a statement about both", "anchors": ["algox/sortx/sortx.go:Sort", "algox/sortx/sortx.go:SortReverse", "algox/sortx/sortx.go:SortStable", "algox/sortx/sortx.go:SortStableReverse", "algox/searchx/searchx.go:Search", "algox/searchx/searchx.go:SearchCustom"]}
{"id": "C122", "title": "The value of a lazy does not depend on the order of Gets", "statement": "For lazies whose constructors get other lazies, may panic and may recover: two programs that get lazies in any order and both get one of them see the same, the same value or both a panic.", "quantifier": "all families of constructors (what they get next may depend on what they got), all sequences of Get calls with panics recovered", "why_tests_cant": "tests get lazies in one order; the effect of a panic shows in lazies built later from the zero value", "anchors": ["functionalx/lazyx/lazy.go:Get", "functionalx/lazyx/lazy.go:New"]}
{"id": "C123", "title": "When Next returns false, everything accepted was shown", "statement": "When a call of Next on a Decoupler returns false, the payload of every Write that had returned without dropping it has been shown.", "quantifier": "all sizes, all payloads, any number of concurrent calls of Write, one reader, all interleavings", "why_tests_cant": "whether a Write is between storing and counting when Next looks is decided by the scheduler; a test drains after the writers have finished", "anchors": ["iox/decouplex/decouple.go:Next", "iox/decouplex/decouple.go:Write"]}
{"id": "C124", "title": "A Write on a Decoupler waits for nobody", "statement": "Wherever the other goroutines have been stopped, a call of Write that goes on alone returns: it accepts or drops its payload.", "quantifier": "all sizes, all payloads, any number of concurrent calls of Write, one reader, every state of every interleaving", "why_tests_cant": "a test cannot stop a goroutine between two given instructions, and cannot tell a call that never returns from a slow one", "anchors": ["iox/decouplex/decouple.go:Write", "iox/decouplex/decouple.go:Next"]}
{"id": "C125", "title": "Run on a goroutine pool returns, and what it accepted is handled", "statement": "In every fair execution each call of Run returns. If it returned true its job is handed to the handler, exactly once; if it returned false the job is never handed over. This holds even if the handlers of other jobs never return.", "quantifier": "all positive maxima, all preheat counts, any number of concurrent calls, every infinite fair execution", "why_tests_cant": "that something happens in the end cannot be seen by a test that stops after a while, and a test sees one schedule", "anchors": ["poolx/gopoolx/timedpool.go:Run", "poolx/gopoolx/timedpool.go:tworker", "poolx/gopoolx/timedpool.go:free"]}
{"id": "C126", "title": "A stopped pool drains", "statement": "After Stop has returned, if handlers return, there is a moment from which on no worker goroutine of the pool is left and Workers() is 0. A Stop call that is the only one returns.", "quantifier": "all positive maxima, all preheat counts, any number of concurrent calls, every infinite fair execution", "why_tests_cant": "that something happens in the end, and stays so, cannot be seen by a test that stops after a while; a test sees one schedule", "anchors": ["poolx/gopoolx/timedpool.go:Stop", "poolx/gopoolx/timedpool.go:start", "poolx/gopoolx/timedpool.go:tworker", "poolx/gopoolx/timedpool.go:free"]}
{"id": "C127", "title": "A slice under any calls is a list", "statement": "Whatever the methods called on one Slice, in any order and with any arguments, what they return and the elements at the end are those of the same operations on a plain list, and the calls that panic are the same.", "quantifier": "all element types, all slices with any spare capacity and any sharing of their memory, all histories of calls of all methods, all int arguments, any growth chosen by append, any random source", "why_tests_cant": "each method keeps or drops spare capacity, moves the start of the window and leaves old values behind; that no order of calls lets one of these show through is about all histories", "anchors": ["dsx/slicex/slicex.go:Splice", "dsx/slicex/slicex.go:Slice", "dsx/slicex/slicex.go:Rotate", "dsx/slicex/slicex.go:Filter", "dsx/slicex/slicex.go:Repeat"]}
{"id": "C128", "title": "A binary search asks a logarithmic number of questions", "statement": "SearchCustom on a slice of fewer than 2^k elements calls the comparison at most k+1 times, each time with an element of the slice first and the value looked for second, even if the comparison is inconsistent. It panics exactly if a call of the comparison panics, which is then the last call; else it returns a position in 0..len.", "quantifier": "all element types, all slices, all k, all comparisons: with memory, inconsistent, panicking", "why_tests_cant": "a bound for all lengths and all comparisons, and that no comparison sees its arguments swapped, is not settled by samples", "anchors": ["algox/searchx/searchx.go:SearchCustom", "algox/searchx/searchx.go:Search"]}
{"id": "C129", "title": "Who keeps calling Wakeup wakes the sleeper", "statement": "If some goroutine calls Wakeup again and again, every SleepForever returns. Every SleepFor and SleepUntil returns even without that, and every Wakeup returns.", "quantifier": "any number of goroutines making any calls, every infinite fair execution", "why_tests_cant": "that a call returns in the end cannot be seen by a test that stops after a while, and the execution in which it does not needs two overlapping calls", "anchors": ["timex/sleepx/sleepx.go:SleepForever", "timex/sleepx/sleepx.go:Wakeup", "timex/sleepx/sleepx.go:SleepFor", "timex/sleepx/sleepx.go:SleepUntil"]}
{"id": "C130", "title": "A Write on a decoupler returns", "statement": "If the callers stop making new calls, every Write returns, whether or not anybody calls Next; and a Write can be kept waiting only by other Writes that are accepted.", "quantifier": "any size from 1, any number of goroutines, every infinite fair execution", "why_tests_cant": "that a call returns in the end cannot be seen by a test that stops after a while, and the executions in which it does not are infinite or 2^64 steps long", "anchors": ["iox/decouplex/decouple.go:Write", "iox/decouplex/decouple.go:Next"]}
{"id": "C131", "title": "The agreement of intervals does not depend on the clock", "statement": "Reading all the intervals on another clock, with another zero, another unit, or running backwards, gives the same agreement read on that clock, and none where there was none.", "quantifier": "all lists of intervals whose bounds are int64s on both clocks, all orders an unstable sort may leave", "why_tests_cant": "it relates infinitely many runs, and the result depends on how the sort orders equal offsets", "anchors": ["timex/intersectionx/intersectionx.go:Intersection", "timex/intersectionx/intersectionx.go:intersection"]}
{"id": "C132", "title": "A linked container hands out only what was put into it", "statement": "Every element that a linked queue, stack, list or deque returns with ok = true or gives to a callback was put into that container by an earlier call.", "quantifier": "all histories of calls on each container, all choices of the node pool", "why_tests_cant": "the pool may hand back any node at any time, with stale links and stale data; the histories are unbounded", "anchors": ["dsx/linkedx/queuex/queuex.go:Dequeue", "dsx/linkedx/stackx/stackx.go:Pop", "dsx/linkedx/listx/listx.go:Remove", "dsx/linkedx/dequex/dequex.go:PopFront", "dsx/linkedx/dequex/dequex.go:PopBack"]}
{"id": "C133", "title": "The failure of a closer can be found in the error that Close returns", "statement": "errors.Is on the result of CloseManager.Close finds a target exactly when one of the closers failed with it, and AsErrs finds the failures wherever the caller wraps or joins the result.", "quantifier": "all histories of Append and Close, all errors of the closers (with Is methods and wrapped errors), all ways to wrap and join the result, all targets", "why_tests_cant": "errors wrap each other in unboundedly many ways; a test shows one of them", "anchors": ["iox/managerx/closex/types.go:AsErrs", "iox/managerx/closex/types.go:ErrorList", "iox/managerx/closex/manager.go:Close"]}
{"id": "C134", "title": "A pool works on at most maxWorkers jobs at a time", "statement": "At no moment are more than maxWorkers jobs between being taken on by Run and the return of the handler; a pool with one worker is a serial executor: when Run takes a job on, the handler has returned from every job taken on before.", "quantifier": "all schedules of Run, workers, clean-up and Stop, all maxWorkers and preheat counts, any set of jobs", "why_tests_cant": "two handlers overlap only in some schedules; users leave locks out of the handler because of this", "anchors": ["poolx/gopoolx/timedpool.go:Run", "poolx/gopoolx/timedpool.go:NewTimedPool"]}
{"id": "C135", "title": "Shuffle is fair", "statement": "Every arrangement of the elements comes from the same number of sequences of draws of the random source, of which there are n!; so with a fair source every arrangement is equally likely.", "quantifier": "all slices, also with equal elements, all arrangements", "why_tests_cant": "n! arrangements; frequencies in a test prove nothing", "anchors": ["dsx/slicex/slicex.go:Shuffle"]}
{"id": "C136", "title": "Times can be grouped by second, minute, hour, day, month and year", "statement": "TruncateMonth and TruncateYear respect the order of times, so times of one month or year are consecutive; and the units nest: truncating to a finer unit before or after truncating to a month or a year changes nothing, and the year of a month start is the year.", "quantifier": "all times the time package can date", "why_tests_cant": "boundaries of months and leap years of all years", "anchors": ["timex/truncatex/truncatex.go:TruncateYear", "timex/truncatex/truncatex.go:TruncateMonth", "timex/truncatex/truncatex.go:TruncateDay"]}
{"id": "C137", "title": "A call on a skip-list map compares few keys, whatever the heights", "statement": "After every history and with every seed, a Get, Set, Del or Seek of a key compares only keys that are present: those smaller than the key in increasing order and each at most once, the others at most 16 times in all by <, and one by !=. So a call makes at most 17 comparisons more than there are smaller keys.", "quantifier": "every seed, every history of Set, Del and Clear, every key", "why_tests_cant": "the worst case over all tower heights the generator can draw", "anchors": ["dsx/mapx/sklmapx/sklmapx.go:search", "dsx/mapx/sklmapx/sklmapx.go:Get", "dsx/mapx/sklmapx/sklmapx.go:Set", "dsx/mapx/sklmapx/sklmapx.go:Del", "dsx/mapx/sklmapx/sklmapx.go:Seek"]}
{"id": "C138", "title": "What a record can make Verify do is bounded", "statement": "Whatever bytes are given as a record, Verify and VerifyBase64 derive at most one key, from the password as it is and a salt that is part of the record, with one of the few built-in costs; bytes that are no record or name an unknown algorithm make it derive none. Hash derives exactly with the drawn salt, and the password reaches the result only through the derived key.", "quantifier": "every password, every byte sequence offered as a record, every key derivation function", "why_tests_cant": "all byte sequences an attacker may offer; what is not called cannot be seen in a result", "anchors": ["cryptox/passhashx/passhash.go:Verify", "cryptox/passhashx/passhash.go:VerifyBase64", "cryptox/passhashx/passhash.go:Hash"]}
{"id": "C139", "title": "A slice kept with Search, Insert and Delete is a sorted collection", "statement": "If elements are added at the index Search reports, removed at it when it reports them found, or only added when it does not, then after any history every call has returned, the slice is in order and holds exactly what a multiset would hold, and every search reported whether its element was there. The content depends only on that multiset; adding only absent elements keeps a set; adding all elements of a list one by one sorts it.", "quantifier": "every totally ordered element type, every sorted start, every history, every growth of the backing arrays", "why_tests_cant": "two packages have to agree on what an index means for every content, including ends, repeats and reallocations", "anchors": ["algox/searchx/searchx.go:Search", "dsx/slicex/slicex.go:Insert", "dsx/slicex/slicex.go:Delete"]}
{"id": "C140", "title": "What was removed from a container is not kept alive by it", "statement": "Once a key or value has been deleted, popped, overwritten or cleared, it can no longer be reached by following pointers from the container, so the garbage collector may free it; what is still in the container can be reached.", "quantifier": "every history, every seed of the skip list, every choice of recycled nodes", "why_tests_cant": "memory reachability is not visible in results and depends on the whole history of pointers", "anchors": ["dsx/mapx/sklmapx/sklmapx.go:Del", "dsx/linkedx/stackx/stackx.go:Pop", "dsx/linkedx/queuex/queuex.go:Dequeue", "dsx/linkedx/listx/listx.go:Remove", "dsx/linkedx/dequex/dequex.go:PopFront", "dsx/slicex/queuex/queuex.go:Dequeue", "dsx/slicex/slicex.go:Pop"]}
{"id": "C141", "title": "Conversions can be chained", "statement": "A number that every type on the way can hold arrives unchanged through any number of Into calls, whichever way is taken, also through strings and floats and back to bool. If a value survives the trip to a type and back, converting through that type is converting directly.", "quantifier": "every chain of built-in types, every number, every registration of converters for other pairs", "why_tests_cant": "chains of any length over all pairs of types and all values", "anchors": ["typex/convx/convx.go:Into", "typex/convx/converters.go:integerToInteger", "typex/convx/converters.go:stringToInteger", "typex/convx/init.go:init"]}
{"id": "C142", "title": "Handlers can give their own pool more work", "statement": "If a handler passes the children of its job to Run on its own pool and handles itself what Run rejects, then every job of the trees is handled exactly once, no handler waits for ever on its own pool, and with finitely many jobs the walk ends, however small the pool is and even if it is stopped meanwhile.", "quantifier": "all trees of jobs, all numbers of workers and preheat counts, any number of goroutines that start, all schedules, Stop at any time", "why_tests_cant": "deadlocks and lost or doubled jobs depend on the interleaving of handlers, Run, Stop and the collector", "anchors": ["poolx/gopoolx/timedpool.go:Run", "poolx/gopoolx/timedpool.go:tworker", "poolx/gopoolx/timedpool.go:free", "poolx/gopoolx/timedpool.go:Stop"]}
{"id": "C143", "title": "A converter that panics does not block the registry", "statement": "A converter may panic or end its goroutine: the lock of the registry is released, the map is never accessed while another goroutine changes it, lookups still answer with the newest registration, each goroutine does what its program says (up to the recovering caller), and if converters do not use the registry themselves all calls come to an end.", "quantifier": "all numbers of goroutines, all programs of Register, Unregister, Exists and Into with recovering callers, all converters, all schedules", "why_tests_cant": "a lock that stays held after a panic shows only in schedules where somebody registers afterwards; all nestings of converters and recovering callers matter", "anchors": ["typex/convx/convx.go:Register", "typex/convx/convx.go:Unregister", "typex/convx/convx.go:Exists", "typex/convx/convx.go:Into"]}
{"id": "C144", "title": "A skip-list map can be shared behind an RWMutex", "statement": "Goroutines that hold a sync.RWMutex for writing around Set, Del and Clear, and for reading around Get, Seek, Len, Keys, Values, ToMap and String of one skip-list map, see one map: the calls are linearizable, nobody is in the map while it is modified, and all calls return. Reading calls change nothing, so many may run at once. Without the lock two Set calls can hide a key that was set.", "quantifier": "all key types with a total order, all numbers of goroutines and calls, all schedules of the single node visits, all level draws", "why_tests_cant": "the read calls share nodes and follow pointers in lock-step with others; a write hidden in Get or in an iterator would show only in particular overlaps", "anchors": ["dsx/mapx/sklmapx/sklmapx.go:search", "dsx/mapx/sklmapx/sklmapx.go:Get", "dsx/mapx/sklmapx/sklmapx.go:Keys", "dsx/mapx/sklmapx/sklmapx.go:Seek", "dsx/mapx/sklmapx/sklmapx.go:Next", "dsx/mapx/sklmapx/sklmapx.go:Set"]}
{"id": "C145", "title": "Kill handlers may wait for each other", "statement": "A program calls HandleKillSig several times and its handlers wait for the channels of others. After one signal every handler runs once and every channel is closed, each after the channels its handler waited for, in every schedule, exactly if the handlers can be put in an order in which each waits for earlier ones only; handlers that wait in a circle never return. A second signal after that crashes the program.", "quantifier": "all numbers of registrations, all waiting relations, all schedules of the runtime and the goroutines", "why_tests_cant": "the order in which a signal reaches the registrations and the goroutines run is not under control of a test, and a deadlock on shutdown needs the right relation", "anchors": ["osx/closex/closex.go:HandleKillSig"]}
{"id": "C146", "title": "Edits of a slice can be taken back", "statement": "A program that notes before each call on a Slice the call that takes it back (Delete for Insert, Pop for Push, Rotate(-n) for Rotate(n), Set with the old element for Set, Splice with the old window for Splice, and so on) can take back any number of its newest edits: the noted calls return and the slice holds exactly what it held before. Delete(i) takes Insert(i, v) back exactly if i was in range.", "quantifier": "all element types, all slices with any spare capacity, all histories of calls of all methods with int arguments that do not overflow, all growth of the backing arrays and all shuffles", "why_tests_cant": "the calls clamp, swap and overflow their indices in different ways, and share memory with the arrays the noted values come from; only all index combinations show that each pair fits", "anchors": ["dsx/slicex/slicex.go:Splice", "dsx/slicex/slicex.go:Insert", "dsx/slicex/slicex.go:Delete", "dsx/slicex/slicex.go:DeleteReplace", "dsx/slicex/slicex.go:Rotate", "dsx/slicex/slicex.go:Slice"]}
{"id": "C147", "title": "A minority of wrong clocks does not lead Intersection astray", "statement": "If the true time is in more than half of the intervals given to Intersection, then an interval that is reported with ok = true contains the true time.", "quantifier": "all lists of intervals with non-negative bands and bounds that are int64s, every true time, every order in which the unstable sort leaves equal offsets", "why_tests_cant": "the wrong intervals are arbitrary; only a counting argument over all of them shows what they can and cannot do to the result", "anchors": ["timex/intersectionx/intersectionx.go:Intersection", "timex/intersectionx/intersectionx.go:intersection"]}
{"id": "C148", "title": "The example program prints the converted values", "statement": "Every run of test/main.go ends without a panic and prints 123456, true, 5678, the random bytes as two small hexadecimal digits each, and \"true true\": no conversion falls back to its default, and the converter the program registers for a type of its own is used. From the fourth line the bytes can be told.", "quantifier": "all contents of the random buffer, 32-bit and 64-bit platforms", "why_tests_cant": "a run shows one random buffer; that no buffer makes the conversion fall back or changes another line needs all of them", "anchors": ["test/main.go:main", "typex/convx/convx.go:IntoOr", "typex/convx/convx.go:Register"]}
{"id": "C149", "title": "A ring can stand between one goroutine that puts in and one that takes out", "statement": "While one goroutine calls Enqueue and IsFull of a ring queue, another may call Dequeue, Peek and IsEmpty without a lock: the calls behave like calls on a bounded queue made one after the other, elements come out in the order they went in, no call waits for the other goroutine, and there is no data race.", "quantifier": "all capacities, all sequences of calls, all interleavings of the single reads and writes of memory", "why_tests_cant": "needs every interleaving of the memory accesses of two goroutines", "anchors": ["dsx/slicex/queuex/queuex.go:Enqueue", "dsx/slicex/queuex/queuex.go:Dequeue", "dsx/slicex/queuex/queuex.go:IsFull", "dsx/slicex/queuex/queuex.go:IsEmpty", "dsx/slicex/queuex/queuex.go:Peek"]}
{"id": "C150", "title": "Slices of one program do not affect each other", "statement": "In a program that makes its slices with New and Copy and calls any methods on them, a call on one slice changes nothing that another slice shows, and each slice behaves like a list of its own.", "quantifier": "all programs over any number of slices, all arguments, all growth of capacities", "why_tests_cant": "needs every mixture of calls on several slices that share one memory", "anchors": ["dsx/slicex/slicex.go:New", "dsx/slicex/slicex.go:Copy", "dsx/slicex/slicex.go:Splice"]}
{"id": "C151", "title": "With fair coins a call on a skip-list map compares few keys on average", "statement": "After any history, the mean number of key comparisons of a Get, Set, Del or Seek over all outcomes of the coin tosses that decide the heights is at most 32 plus one for every 32768 present keys smaller than the one asked for.", "quantifier": "all histories of Set, Del and Clear, all keys, all outcomes of the coin tosses", "why_tests_cant": "a mean over all outcomes for maps of all sizes cannot be measured", "anchors": ["dsx/mapx/sklmapx/sklmapx.go:rand_height", "dsx/mapx/sklmapx/sklmapx.go:search", "dsx/mapx/sklmapx/sklmapx.go:insert", "dsx/mapx/sklmapx/splitmix64.go:splitmix64"]}
{"id": "C152", "title": "A container keeps no more nodes in memory than it needs for what is in it", "statement": "After any history the number of nodes that the garbage collector has to keep because of a container is bounded by the number of elements in it: one node for each element, or for 64 elements in a deque, plus a constant.", "quantifier": "all histories, all choices of the pool which nodes to hand out", "why_tests_cant": "what the garbage collector must keep is not visible to a test, and it depends on the whole history and on the pool", "anchors": ["dsx/mapx/sklmapx/sklmapx.go:delete", "dsx/linkedx/stackx/stackx.go:Pop", "dsx/linkedx/queuex/queuex.go:Dequeue", "dsx/linkedx/listx/listx.go:Insert", "dsx/linkedx/dequex/dequex.go:PushFront"]}
{"id": "C153", "title": "An ordered map can be shared behind an RWMutex", "statement": "Goroutines that share an ordered map and hold a sync.RWMutex for reading around Get, Len, Keys, Values and Range and for writing around Set, Del and Clear see one ordered map: the calls take effect one after the other between their start and their return, Values and Range pair every key with its value at that moment, Range gives its callback the entries in order up to the first stop, no call is in the map while another modifies it, and every call returns.", "quantifier": "all schedules of any number of goroutines, all calls, all callbacks that stop by what they were given", "why_tests_cant": "the result depends on the interleaving of the node by node reads; a test sees a few schedules", "anchors": ["dsx/mapx/ordmapx/ordmapx.go:Set", "dsx/mapx/ordmapx/ordmapx.go:Values", "dsx/mapx/ordmapx/ordmapx.go:Range"]}
{"id": "C154", "title": "A typed pool hands objects on as they were put", "statement": "When callers keep the rules in the comments of the package, Get never returns nil and never panics after Init; an object taken from the pool is held by nobody else, was put before and has the content it was put with, so objects put in a state that New could have left come out in such a state; and a goroutine that holds an object reads what it wrote itself since it got it, or else what it got. Each rule is needed: breaking it has an execution in which the promise fails.", "quantifier": "all executions of any number of goroutines, all contents, all choices of sync.Pool and of the garbage collector", "why_tests_cant": "which object sync.Pool returns, and whether it returns one at all, depends on the processor and on garbage collections; a test sees one choice", "anchors": ["syncx/syncpoolx/syncpoolx.go:Get", "syncx/syncpoolx/syncpoolx.go:Put", "syncx/syncpoolx/syncpoolx.go:Init"]}
{"id": "C155", "title": "A pool turns a job down only when all its workers are taken", "statement": "While a pool is not stopped, Run turns a job down only if maxWorkers jobs are in progress; and callers who keep trying get jobs taken on.", "quantifier": "all reachable states of a pool without preheated workers, all maximal numbers of workers; for the second part all fair executions", "why_tests_cant": "the refusals that break it happen in the few instructions between the return of a handler and the free list, or during a collection; a test meets them by chance", "anchors": ["poolx/gopoolx/timedpool.go:Run", "poolx/gopoolx/timedpool.go:start", "poolx/gopoolx/timedpool.go:free"]}
{"id": "C156", "title": "With fair coins a call on a skip-list map is rarely slow", "statement": "Let m present keys be smaller than the key of a Get, Set, Del or Seek, and m at most 2^L with L from 1 to 16. Of all ways the coins can fall, the part in which the call makes 17 + r comparisons of keys or more is at most 3 * 2^(L-1) * (2/3)^r; for larger m a factor (1 + 1/2^L)^m takes the place of 3. Of a history of n at most 2^L updates, the part in which any update makes that many is at most n times this.", "quantifier": "all histories, calls, seeds and ordered key types, all r, all ways the coins can fall", "why_tests_cant": "slow cases are exponentially rare; a test draws a few heights and meets none of them", "anchors": ["dsx/mapx/sklmapx/sklmapx.go:search", "dsx/mapx/sklmapx/sklmapx.go:rand_height"]}
{"id": "C157", "title": "A program that closes its manager on a kill signal closes everything once", "statement": "With HandleKillSig(func() { manager.Close() }, logger) and goroutines that register closers at any time: when the returned channel is closed, every closer whose Append has returned has been closed exactly once; and once a signal has come the channel is closed in the end.", "quantifier": "all executions: any number of goroutines that call Append, any number of signals at any time; for the second part all fair executions", "why_tests_cant": "what matters is whether an Append or a second signal falls between two steps of the shutdown; a test sends one signal at one moment", "anchors": ["osx/closex/closex.go:HandleKillSig", "iox/managerx/closex/manager.go:Append", "iox/managerx/closex/manager.go:Close"]}
{"id": "C158", "title": "A stack or queue behind a mutex hands every element on exactly once", "statement": "Goroutines that share a dsx.Stack or dsx.Queue and hold a mutex around every call, unlocking with defer, hand elements on: every element that a Pop or Dequeue returns was put in by a Push or Enqueue of its own that is not later; no element is handed out twice; and when a Pop or Dequeue finds nothing, everything put in by calls that had returned before it started has been taken. All calls return.", "quantifier": "all schedules of any number of goroutines, all calls, all choices of the node pool and of append, all four implementations", "why_tests_cant": "lost and doubled elements depend on which calls of which goroutines come in between; a test tries a few orders", "anchors": ["dsx/slicex/stackx/stackx.go:Pop", "dsx/slicex/queuex/queuex.go:Dequeue", "dsx/linkedx/stackx/stackx.go:Pop", "dsx/linkedx/queuex/queuex.go:Dequeue"]}
{"id": "C159", "title": "Goroutines can work on the pieces of Split and Batch at the same time", "statement": "If the pieces that Split or Batch returned are given to different goroutines, each of them can call methods on its piece while the others do the same: it gets the results it would get alone, no element is used by two of them, and the slice that was split ends up showing what each made of its part.", "quantifier": "for all slices, sizes, numbers of goroutines, sequences of calls and interleavings of single reads and writes", "why_tests_cant": "the number of interleavings of element accesses is unbounded; a test run shows one of them", "anchors": ["dsx/slicex/slicex.go:Batch", "dsx/slicex/slicex.go:Split", "dsx/slicex/slicex.go:Push", "dsx/slicex/slicex.go:Reverse", "dsx/slicex/slicex.go:Filter"]}
{"id": "C160", "title": "Goroutines that share lazies see the same of each, also when constructors panic", "statement": "Goroutines get lazies whose constructors get other lazies, chosen by what they got so far, may panic and may recover from panics of others. All Get calls of one lazy give the same. Every constructor runs at most once, and if no lazy needs itself all goroutines come to an end.", "quantifier": "for all constructors, numbers of goroutines, programs of Get calls and interleavings of the steps of sync.Once", "why_tests_cant": "which goroutine runs which constructor and where it is interrupted depends on the schedule; nested constructors hold several mutexes at once, and a deadlock shows in few schedules", "anchors": ["functionalx/lazyx/lazy.go:New", "functionalx/lazyx/lazy.go:Get"]}
{"id": "C161", "title": "Goroutines that use different bits of a bit set do not disturb each other", "statement": "If every goroutine uses its own bits of a shared bit set, its Set, Clear, Toggle and Test calls do to these bits and give what they would if it were alone.", "quantifier": "for all widths, words, numbers of goroutines, programs of calls on disjoint bits and interleavings of single reads and writes of the word", "why_tests_cant": "a lost update needs two goroutines between a read and a write at the same moment; test runs rarely hit it and passing ones say nothing about the other interleavings", "anchors": ["dsx/setx/bitsetx/bitsetx.go:Set", "dsx/setx/bitsetx/bitsetx.go:Clear", "dsx/setx/bitsetx/bitsetx.go:Toggle", "dsx/setx/bitsetx/bitsetx.go:Test"]}
{"id": "C162", "title": "A copy of a slice stack or slice list is independent of the original", "statement": "After assigning one Stack or List variable of the slice packages to another, calls on one do not change what calls on the other give.", "quantifier": "for all element types, memories, capacities chosen by append and programs of assignments and method calls over any number of variables", "why_tests_cant": "whether two copies share a place depends on the capacity append happened to choose; tests see one choice and a few orders of calls", "anchors": ["dsx/slicex/stackx/stackx.go:Push", "dsx/slicex/stackx/stackx.go:Pop", "dsx/slicex/listx/listx.go:Append", "dsx/slicex/listx/listx.go:Insert", "dsx/slicex/listx/listx.go:Remove"]}
{"id": "C163", "title": "An iterator of a skip-list map survives any Set and Del calls", "statement": "If a map is changed by any Set and Del calls during an iteration, also of the key the iterator stands on, Next returns keys in ascending order, every entry it gives was in the map at some time since the iteration began, no key that was there all the time is missed, and Next does not panic before it has returned ok = false.", "quantifier": "for all totally ordered key types, histories, positions where the iteration begins and interleavings of Set, Del and Next", "why_tests_cant": "a removed node keeps its next pointers of the moment it was removed, so what Next gives depends on the order of all calls since; tests try a few orders", "anchors": ["dsx/mapx/sklmapx/sklmapx.go:Next", "dsx/mapx/sklmapx/sklmapx.go:Set", "dsx/mapx/sklmapx/sklmapx.go:Del", "dsx/mapx/sklmapx/sklmapx.go:Seek"]}
{"id": "C164", "title": "Sorting by one key after another with SortStableCustom sorts by all keys", "statement": "Calling SortStableCustom once for each of several comparisons, the least important first, leaves the slice as one SortStableCustom with the combined comparison would: in the order of the most important comparison that tells two elements apart, with elements that none tells apart in their old order.", "quantifier": "for all element types, slices, lists of strict weak orderings and correct stable sorting routines", "why_tests_cant": "a routine that is not stable, or not for long slices, gives the right result on the small or lucky inputs of a test", "anchors": ["algox/sortx/sortx.go:SortStableCustom", "algox/sortx/sortx.go:SortCustom"]}
{"id": "C165", "title": "Goroutines can update entries of a shared map with Get and Set", "statement": "When goroutines update entries of one Map with m.Set(k, f(m.Get(k))), for example to count, then when all are done the map is as if the updates had been made one after another in some order: no update is lost.", "quantifier": "for all key and value types, maps, numbers of goroutines, lists of updates and schedules, with or without a mutex of the program", "why_tests_cant": "an update is lost only when two goroutines come between Get and Set of the same key at the same time, which a test rarely provokes; and each method alone is safe, so the race detector is silent", "anchors": ["dsx/mapx/syncmapx/syncmapx.go:Get", "dsx/mapx/syncmapx/syncmapx.go:Set"]}
{"id": "C166", "title": "Programs may treat the calls of a concurrent map as single steps", "statement": "Goroutines that run any programs and share one Map reach, with all locks and loops of its methods, the same local states as if every call were made at once; they do not deadlock, and they come to an end if they do when every call is made at once.", "quantifier": "for all programs of any number of goroutines, key types with symmetric and transitive ==, value types and schedules", "why_tests_cant": "a test runs one program under few schedules; that reasoning with whole calls is sound for all programs is a statement about all of them", "anchors": ["dsx/mapx/syncmapx/syncmapx.go:Get", "dsx/mapx/syncmapx/syncmapx.go:Has", "dsx/mapx/syncmapx/syncmapx.go:Keys", "dsx/mapx/syncmapx/syncmapx.go:Set", "dsx/mapx/syncmapx/syncmapx.go:Delete", "dsx/mapx/syncmapx/syncmapx.go:Clear"]}
{"id": "C167", "title": "A concurrent map can serve as a cache", "statement": "A program that answers a request for a key with m.Get(k) if m.Has(k), and otherwise computes the value, stores it with m.Set and answers with it, answers every request with the value of the key, in any number of goroutines, also while entries are dropped with Delete and Clear.", "quantifier": "for all functions, key and value types, lists of requests of any number of goroutines and schedules", "why_tests_cant": "the wrong answer needs a Delete between two calls of another goroutine; a test would have to hit that moment", "anchors": ["dsx/mapx/syncmapx/syncmapx.go:Has", "dsx/mapx/syncmapx/syncmapx.go:Get", "dsx/mapx/syncmapx/syncmapx.go:Set", "dsx/mapx/syncmapx/syncmapx.go:Delete"]}
{"id": "C168", "title": "A loop over the keys of a concurrent map finds its entries", "statement": "for _, k := range m.Keys() { out = append(out, entry{k, m.Get(k)}) } finds the entries that the map had at some moment, while other goroutines use the map.", "quantifier": "for all programs of the other goroutines, numbers of loops, key types with symmetric and transitive ==, value types and schedules", "why_tests_cant": "a torn copy needs two Sets of another goroutine between two Gets; a test would have to hit these moments, and it cannot show what is guaranteed in all of them", "anchors": ["dsx/mapx/syncmapx/syncmapx.go:Keys", "dsx/mapx/syncmapx/syncmapx.go:Get", "dsx/mapx/syncmapx/syncmapx.go:Set", "dsx/mapx/syncmapx/syncmapx.go:Delete", "dsx/mapx/syncmapx/syncmapx.go:Clear"]}
{"id": "C169", "title": "Goroutines can go through a shared skip-list map with iterators", "statement": "Goroutines that share a SkipListMap behind a sync.RWMutex and hold the lock for one call at a time can go through it with Next while others Set and Del: the keys come in ascending order, each with a value it had since the loop began, no key is missed that was there all the time, what nobody touched is given exactly, Next does not panic, and the loops end when the others do.", "quantifier": "for all programs of the other goroutines without Clear, numbers of loops, ordered key types, value types, seeds and schedules", "why_tests_cant": "whether an iterator meets a deleted node or a node set meanwhile depends on the schedule; a test runs few of them", "anchors": ["dsx/mapx/sklmapx/sklmapx.go:Next", "dsx/mapx/sklmapx/sklmapx.go:Iterator", "dsx/mapx/sklmapx/sklmapx.go:Set", "dsx/mapx/sklmapx/sklmapx.go:Del"]}
{"id": "C170", "title": "Programs may treat the calls of a skip-list map or ordered map behind an RWMutex as single steps", "statement": "Goroutines that run any programs and share a SkipListMap or OrderedMap behind a sync.RWMutex, with all steps of the mutex and of the searches and loops, reach the same local states as if every call were made at once on a mathematical map; they do not deadlock, and they come to an end if they do when every call is made at once.", "quantifier": "for all programs of any number of goroutines, ordered key types, value types, seeds and schedules", "why_tests_cant": "a test runs one program under few schedules; that reasoning with whole calls is sound for all programs is a statement about all of them", "anchors": ["dsx/mapx/sklmapx/sklmapx.go:Get", "dsx/mapx/sklmapx/sklmapx.go:Set", "dsx/mapx/sklmapx/sklmapx.go:Del", "dsx/mapx/sklmapx/sklmapx.go:Keys", "dsx/mapx/ordmapx/ordmapx.go:Set", "dsx/mapx/ordmapx/ordmapx.go:Range"]}
{"id": "C171", "title": "Results that pool handlers store in a concurrent map are all there when the pool is done", "statement": "When the handler of a TimedPool stores the result of its job in a concurrent map under a key of the job's own, then at every moment the map holds the results of jobs that Run accepted, each stored once, and of all jobs whose handlers have returned; whenever Workers returns 0 it holds exactly the results of the jobs for which Run returned true; a Get that begins after a job's handler has returned gives the job's result; and some time after Stop all results are there. Handlers do not deadlock on the map.", "quantifier": "for all jobs, numbers of workers and of goroutines that run, stop or read, key types (also those where == is not reflexive), value types and schedules", "why_tests_cant": "the last results may still be on their way when a test looks, and whether they are depends on the schedule", "anchors": ["poolx/gopoolx/timedpool.go:Run", "poolx/gopoolx/timedpool.go:Stop", "poolx/gopoolx/timedpool.go:Workers", "dsx/mapx/syncmapx/syncmapx.go:Set", "dsx/mapx/syncmapx/syncmapx.go:Get"]}
{"id": "C172", "title": "Several calls on a container between a Lock and an Unlock of the program are one step", "statement": "When goroutines use a skip-list map, an ordered map or a linked stack only inside sections of a sync.RWMutex, any number of calls in each, with only reading calls under RLock, then every state they reach is one of whole sections made one after the other on a mathematical map or stack; what every section keeps when it runs alone is seen by every reading section; no schedule deadlocks or panics, and programs without endless loops end. So transfers between entries are never lost and audits never see a half-made one, look-up-or-create gives everybody the same value, and taking from a linked stack with Peek and Pop in one section gives a correct stack although Pop alone does not return what it removes. A lock around every single call gives none of this.", "quantifier": "for all programs, numbers of goroutines, keys, values, transfers and schedules", "why_tests_cant": "what goes wrong without sections shows only in particular interleavings, and that nothing goes wrong with them is about all interleavings", "anchors": ["dsx/mapx/sklmapx/sklmapx.go:Get", "dsx/mapx/sklmapx/sklmapx.go:Set", "dsx/mapx/sklmapx/sklmapx.go:search", "dsx/mapx/ordmapx/ordmapx.go:Set", "dsx/linkedx/stackx/stackx.go:Pop", "dsx/linkedx/stackx/stackx.go:Peek"]}
{"id": "C173", "title": "Goroutines that take jobs from a shared stack and store the results in a concurrent map do every job exactly once and stop", "statement": "Programs that use several containers, each behind a lock of its own, reach nothing that they do not reach with all calls on all containers made at once and one after the other; they do not deadlock. So when goroutines push jobs on a slice stack (under a mutex), take jobs from it until it is empty and store each result in a concurrent map, then in every schedule no job is done twice, the goroutines all stop, and when they have stopped the stack is empty and the map has the result of every job and nothing else.", "quantifier": "for all numbers of goroutines, lists of jobs, result functions, key equalities (also non-reflexive) and schedules", "why_tests_cant": "a job lost or done twice between the two containers shows only in particular interleavings of calls on both, and that the goroutines stop only when all is done is about every schedule", "anchors": ["dsx/slicex/stackx/stackx.go:Push", "dsx/slicex/stackx/stackx.go:Pop", "dsx/mapx/syncmapx/syncmapx.go:Set", "dsx/mapx/syncmapx/syncmapx.go:Get"]}
{"id": "C174", "title": "The text of a password record tells everything that Verify looks at", "statement": "String of a PasswordHash returns for every byte slice without panicking. For a record it shows the algorithm's name, the salt and the hash, for anything else one fixed text. Two byte slices with the same text are treated the same by Verify for every password; for a known algorithm the text determines algorithm, salt and hash. Match calls exactly the handler of the algorithm that String names, and none when the algorithm is unknown.", "quantifier": "for all byte slices of any length and capacity, passwords and key derivation functions", "why_tests_cant": "that no two different salts, hashes or algorithms run together in one text is a statement about all pairs of records", "anchors": ["cryptox/passhashx/internal/passhash.vstruct.go:String", "cryptox/passhashx/internal/passhash.vstruct.go:Match", "cryptox/passhashx/internal/passhash.vstruct.go:MatchS", "cryptox/passhashx/passhash.go:Verify"]}
{"id": "C175", "title": "No call on a locked container waits for ever", "statement": "In every fair execution every call on a concurrent map returns, although other goroutines go on calling the same map without end. The same holds for skip-list maps and ordered maps behind an RWMutex and for the stacks and queues behind a mutex, also for calls that panic. With a lock that let readers pass a waiting writer, a Set could wait for ever.", "quantifier": "for all endless executions with any number of goroutines and calls, all key types, keys and values", "why_tests_cant": "a test sees a finite part of an execution; that a call never returns shows in no finite part", "anchors": ["dsx/mapx/syncmapx/syncmapx.go:Get", "dsx/mapx/syncmapx/syncmapx.go:Keys", "dsx/mapx/syncmapx/syncmapx.go:Set", "dsx/mapx/syncmapx/syncmapx.go:Delete", "dsx/mapx/sklmapx/sklmapx.go:Set", "dsx/mapx/ordmapx/ordmapx.go:Set", "dsx/slicex/stackx/stackx.go:Pop", "dsx/linkedx/queuex/queuex.go:Dequeue"]}
{"id": "C176", "title": "What is stored in a concurrent map becomes visible to all who ask", "statement": "Once a Set has returned, every later Has for the key answers yes and every later Get returns a value that was stored under the key, as long as nobody deletes the key or clears the map. In a fair execution every Set that was called comes to be seen, for finitely many keys from one moment on, so that a goroutine that asks again and again until the keys are there comes to an end, although others go on using the map.", "quantifier": "for all endless executions with any number of goroutines and calls, all key types with symmetric and transitive ==, keys and values", "why_tests_cant": "that somebody who polls goes on for ever, or misses a value, depends on the schedule and shows in no finite part of an execution", "anchors": ["dsx/mapx/syncmapx/syncmapx.go:Set", "dsx/mapx/syncmapx/syncmapx.go:Has", "dsx/mapx/syncmapx/syncmapx.go:Get"]}
{"id": "C177", "title": "A converter registry can be used and changed at the same time", "statement": "Whatever goroutines register, unregister, look up and convert at the same time, the registry behaves like one history of registrations in which every call takes place at one moment between its start and its end, and a conversion is done by the converter registered last at that moment. No converter is at work while the registry is changed, several can be at work at the same time. In a fair execution every call returns. Once a Register has returned, every later Into, IntoOr and Exists for the pair finds a converter that was registered for it, as long as nobody unregisters it.", "quantifier": "for all executions with any number of goroutines and calls, all concrete types, values, converters and starting histories, all durations of the converters", "why_tests_cant": "the schedules of unboundedly many goroutines, and whether a converter is used that was already replaced, cannot be enumerated; that a call waits for ever shows in no finite part of an execution", "anchors": ["typex/convx/convx.go:Register", "typex/convx/convx.go:Unregister", "typex/convx/convx.go:Exists", "typex/convx/convx.go:Into", "typex/convx/convx.go:IntoOr"]}
{"id": "C178", "title": "A close manager that goroutines share is one list of closers and loses no failure", "statement": "Whatever goroutines append and close at the same time, the manager behaves like one list: every call takes place at one moment between its start and its end, and a Close calls all closers that are in the list at its moment, once each and in order, and returns exactly their errors. In a fair execution every call returns. A closer whose Append has returned is called by every Close that starts later, and if it fails its error is in what AsErrs finds in the result.", "quantifier": "for all executions with any number of goroutines and calls, all closers with any effects and errors", "why_tests_cant": "the schedules of unboundedly many goroutines cannot be enumerated, and which closers a Close has to report depends on the moment at which it gets the lock", "anchors": ["iox/managerx/closex/manager.go:Append", "iox/managerx/closex/manager.go:Close", "iox/managerx/closex/types.go:AsErrs"]}
{"id": "C179", "title": "A skip-list map can be read page by page", "statement": "A program that keeps the last key of a page and later reads the next page with Seek(last) and up to n Next calls gets the first n entries after that key that the map has then: keys ascend from page to page, none comes twice, every entry was in the map when its page was read, and when a page is not full no key has been missed that was there whenever a page was read.", "quantifier": "for all totally ordered key types, page sizes, seeds, and all Set, Del and Clear calls between the pages", "why_tests_cant": "which keys are deleted and set between two pages, and where a page ends, are unbounded choices; a test reads pages of a map that does not change", "anchors": ["dsx/mapx/sklmapx/sklmapx.go:Seek", "dsx/mapx/sklmapx/sklmapx.go:Next", "dsx/mapx/sklmapx/sklmapx.go:Iterator"]}
{"id": "C180", "title": "A skip-list map behind a mutex is a priority queue", "statement": "Goroutines that share a skip-list map behind a mutex, put entries in with Get and Set (a key that is taken is refused) and take the first one out with Iterator, Next and Del, have a priority queue: every call takes place at one moment, each accepted entry is handed out at most once, a pop that starts after an entry was accepted returns a smaller key unless the entry is taken, two pops in a row give ascending keys unless the second entry came late, all calls return, and an entry is served once there are more pops than calls that put in smaller keys.", "quantifier": "for all totally ordered key types, value types, seeds, numbers of goroutines, calls and schedules; the last two for fair executions", "why_tests_cant": "the order of the calls of the goroutines, the keys and their number are unbounded, and that an entry is served is about infinite executions", "anchors": ["dsx/mapx/sklmapx/sklmapx.go:Next", "dsx/mapx/sklmapx/sklmapx.go:Del", "dsx/mapx/sklmapx/sklmapx.go:Set", "dsx/mapx/sklmapx/sklmapx.go:Get", "dsx/mapx/sklmapx/sklmapx.go:Iterator"]}
{"id": "C181", "title": "A bit set behind a mutex hands out numbers", "statement": "Goroutines that share a bit set behind a mutex and take the first number below a limit for which Test is false and Set it, and Clear it later, have a pool of numbers: no number is handed out a second time unless it was given back in between, a goroutine is told that there is none only when all are in use, and all calls return.", "quantifier": "for all widths of the word, limits, numbers of goroutines, calls and schedules", "why_tests_cant": "the width, the limit and the order of calls of the goroutines are unbounded; a test with few numbers never comes to the width of the word", "anchors": ["dsx/setx/bitsetx/bitsetx.go:Set", "dsx/setx/bitsetx/bitsetx.go:Test", "dsx/setx/bitsetx/bitsetx.go:Clear", "dsx/setx/bitsetx/bitsetx.go:IsFull"]}
{"id": "C182", "title": "Password records in a concurrent map", "statement": "In a server whose goroutines hash new passwords with Hash and Set the record in a shared syncmapx.Map, Verify what Get returns at a login, and Delete users, a login never panics and is let in only with a password that has the key of one that was set for this user and may be the current one; it is let in when all the changes that may be the last one set its password and one of them had returned; it is refused when they all removed the user or set passwords with other keys; and all map calls return under a fair scheduler.", "quantifier": "for all numbers of goroutines, users, passwords, levels, salts and schedules", "why_tests_cant": "which change is the last one before a login depends on the schedule, and the passwords are unbounded", "anchors": ["cryptox/passhashx/passhash.go:Hash", "cryptox/passhashx/passhash.go:Verify", "dsx/mapx/syncmapx/syncmapx.go:Get", "dsx/mapx/syncmapx/syncmapx.go:Set", "dsx/mapx/syncmapx/syncmapx.go:Delete"]}
{"id": "C183", "title": "A password can be changed with the old one only once", "statement": "When two goroutines change the password of a user with Verify of the old password against Get of a shared syncmapx.Map and then Set of the Hash of a new one, and the old password is no good for either new record, at most one of them goes through.", "quantifier": "for all key derivation functions, passwords, salts, goroutines and schedules", "why_tests_cant": "whether both look up the old record before either stores a new one depends on the schedule", "anchors": ["cryptox/passhashx/passhash.go:Hash", "cryptox/passhashx/passhash.go:Verify", "dsx/mapx/syncmapx/syncmapx.go:Get", "dsx/mapx/syncmapx/syncmapx.go:Set"]}
