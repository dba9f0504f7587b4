#!/usr/bin/env python3
"""Writes ../properties.jsonl. One tuple per property:
(title, statement, quantifier, why_tests_cant, anchors)."""
import json, os
P = []
def p(title, statement, quantifier, why, *anchors):
    P.append((title, statement, quantifier, why, list(anchors)))

SKL = "dsx/mapx/sklmapx/sklmapx.go"
# ---------------------------------------------------------------- sklmapx
p("Skip-list map is a finite map",
  "On a map from sklmapx.New, for every history of Set/Get/Del/Len/Clear over a totally ordered key type, Get(k) returns the value of the latest Set(k,_) not followed by Del(k) or Clear (and ok=false if there is none), Del(k) returns true exactly when k was present, and Len() is the number of distinct present keys. None of this depends on the random tower heights.",
  "every history of operations, every key/value, every seed of the height generator",
  "the pointer structure depends on a random seed and on the whole history; tests see a handful of histories with a handful of seeds",
  f"{SKL}:search", f"{SKL}:insert", f"{SKL}:delete", f"{SKL}:Set", f"{SKL}:Get", f"{SKL}:Del", f"{SKL}:Len", f"{SKL}:Clear")
p("Skip-list enumeration is sorted, complete and duplicate-free",
  "After every history, Keys() is strictly ascending and contains exactly the present keys; Values() lists their current values in the same order; ToMap() maps exactly the present keys to their values; repeated Next() on a fresh Iterator yields the same (key,value) pairs in the same order and then ok=false.",
  "every history of operations, every seed",
  "enumeration follows level-0 pointers built by every earlier insert and delete under random heights",
  f"{SKL}:Keys", f"{SKL}:Values", f"{SKL}:ToMap", f"{SKL}:Next", f"{SKL}:Iterator")
p("Seek positions an iterator exactly",
  "Seek(k) on a present key returns (k, its value, true) and the following Next calls enumerate exactly the entries with larger keys in ascending order; Seek on an absent key returns ok=false and the following Next calls enumerate the whole map from the smallest key; Rewind also restarts from the smallest key.",
  "every reachable map, every key sought",
  "positions depend on the whole pointer structure; only a few seeks can be tried",
  f"{SKL}:Seek", f"{SKL}:Rewind", f"{SKL}:Next")
p("An exhausted iterator stays exhausted",
  "Once Next() has returned ok=false, every later Next() also returns ok=false without panicking.",
  "every reachable map, every number of extra Next calls",
  "the usual for-loop stops at the first false, so a test never makes the extra call",
  f"{SKL}:Next")
p("Iteration survives modification of other keys",
  "If between two Next() calls the map is changed by any Set and Del calls that do not delete the iterator's current key (and no Clear), the next Next() returns the smallest key now present that is larger than the current key, with its current value, or ok=false if there is none.",
  "every reachable map, every iterator position, every interleaved sequence of Set/Del",
  "quantifies over arbitrary mutations between two calls",
  f"{SKL}:Next", f"{SKL}:insert", f"{SKL}:delete")
p("Unrelated keys do not disturb each other, for every Ordered key type",
  "For every key type allowed by constraints.Ordered (floats included), Set(k2,_) with k2 different from k1 never changes what Get(k1) returns.",
  "every history, every Ordered key type including float64 with NaN",
  "NaN keys are rarely tried and the damage shows only for some insertion orders",
  f"{SKL}:search", f"{SKL}:insert")
p("Height generator stays in range and seeds never repeat",
  "For every seed, the tower height drawn for a new entry is between 1 and 16; the 64-bit mixing function is a bijection, one generator does not repeat a state before 2^64 draws, and the seeds handed to maps created by New are pairwise distinct until 2^64 maps have been created.",
  "every 64-bit seed, every number of draws and of created maps below 2^64",
  "a 64-bit domain cannot be enumerated",
  "dsx/mapx/sklmapx/splitmix64.go:next", "dsx/mapx/sklmapx/splitmix64.go:splitmix64", "dsx/mapx/sklmapx/splitmix64.go:root_next", f"{SKL}:rand_height")
p("String renders all entries in key order",
  "String() is 'sklmapx[' followed by key:value for the present entries in ascending key order separated by one space, followed by ']'.",
  "every reachable map, every formatting of keys and values",
  "separator placement depends on the number of entries",
  f"{SKL}:String")
# ---------------------------------------------------------------- ordmapx
O = "dsx/mapx/ordmapx/ordmapx.go"
p("Ordered map is a finite map whose two halves never diverge",
  "For every history of Set/Get/Del/Len/Clear, OrdMap.Get/Len agree with a finite map, i.e. the hash map and the ordered key index always hold the same keys.",
  "every history, every seed, totally ordered keys",
  "divergence between two containers appears only after particular histories",
  f"{O}:Set", f"{O}:Get", f"{O}:Del", f"{O}:Clear", f"{O}:Len")
p("Ordered map enumeration is aligned and early-stop is exact",
  "Keys() is strictly ascending and lists exactly the present keys; Values()[i] is the value of Keys()[i]; Range visits entries in ascending key order with their values and stops right after the first callback that returns true, visiting nothing else.",
  "every reachable map, every callback",
  "quantifies over callbacks and histories",
  f"{O}:Keys", f"{O}:Values", f"{O}:Range")
# ---------------------------------------------------------------- syncmapx
S = "dsx/mapx/syncmapx/syncmapx.go"
p("Concurrent map is linearizable",
  "For any number of goroutines calling Get/Has/Size/Keys/Values/Set/Delete/Clear with any interleaving of their steps, every completed call returns what it would return in some sequential order of the calls that respects real time; Keys/Values are exact snapshots at one instant (each present key once).",
  "every number of goroutines, every program of calls, every schedule",
  "schedules cannot be enumerated by tests",
  f"{S}:Get", f"{S}:Has", f"{S}:Size", f"{S}:Keys", f"{S}:Values", f"{S}:Set", f"{S}:Delete", f"{S}:Clear")
p("Concurrent map never races on its storage",
  "In every schedule, while a Set/Delete/Clear call is accessing the underlying map no other call is accessing it; only read calls may overlap each other.",
  "every schedule of any number of goroutines",
  "race detectors only see executed schedules",
  f"{S}:Set", f"{S}:Delete", f"{S}:Clear", f"{S}:Get")
# ---------------------------------------------------------------- linked containers
LQ = "dsx/linkedx/queuex/queuex.go"
p("Linked queue is a FIFO queue",
  "For every history, Dequeue returns the elements in the order they were enqueued, each once, (zero,false) when empty, never panics; Peek returns the element the next Dequeue returns; IsEmpty tells whether all enqueued elements were dequeued.",
  "every history of Enqueue/Dequeue/Peek/IsEmpty, every behaviour of the node pool",
  "node recycling makes behaviour depend on the garbage collector and on history",
  f"{LQ}:Enqueue", f"{LQ}:Dequeue", f"{LQ}:Peek", f"{LQ}:IsEmpty")
LS = "dsx/linkedx/stackx/stackx.go"
p("Linked stack is a LIFO stack",
  "For every history, Pop removes and returns the most recently pushed element not yet popped ((zero,false) when empty) and never panics; Peek returns it without removing; Len is the number of elements.",
  "every history of Push/Pop/Peek/Len, every behaviour of the node pool",
  "node recycling makes behaviour depend on history",
  f"{LS}:Push", f"{LS}:Pop", f"{LS}:Peek", f"{LS}:Len")
LD = "dsx/linkedx/dequex/dequex.go"
p("Linked deque is a double-ended queue",
  "For every history of pushes, pops and peeks at both ends, the deque returns exactly what an abstract double-ended sequence returns, across 64-element node boundaries and node recycling.",
  "every history, every behaviour of the node pool",
  "node boundaries, emptying and recycling combine in unboundedly many ways",
  f"{LD}:PushFront", f"{LD}:PushBack", f"{LD}:PopFront", f"{LD}:PopBack", f"{LD}:PeekFront", f"{LD}:PeekBack")
LL = "dsx/linkedx/listx/listx.go"
p("Linked list is an indexable sequence",
  "For every history, Append/Insert/Remove/At/Iterate/Len behave like the same operations on an abstract sequence: Insert(i,v) for 0<=i<=Len puts v at position i, Remove(i) for 0<=i<Len removes and returns element i and is a no-op returning false otherwise, Len is the number of elements.",
  "every history, every index, every behaviour of the node pool",
  "stale tail pointers only show after particular histories",
  f"{LL}:Append", f"{LL}:Insert", f"{LL}:Remove", f"{LL}:At", f"{LL}:Iterate", f"{LL}:Len")
# ---------------------------------------------------------------- slice containers
R = "dsx/slicex/queuex/queuex.go"
p("Ring queue is a bounded FIFO queue",
  "A ring from New(n), n>0, holds up to n elements: Enqueue accepts while fewer than n elements are held and returns false otherwise, Dequeue/Peek return elements in FIFO order, IsEmpty/IsFull tell whether 0/n elements are held; no operation panics.",
  "every capacity, every history",
  "wrap-around positions depend on the whole history",
  f"{R}:New", f"{R}:Enqueue", f"{R}:Dequeue", f"{R}:Peek", f"{R}:IsEmpty", f"{R}:IsFull", f"{R}:Head", f"{R}:Cap")
p("Slice stack is a LIFO stack",
  "For every history of Push/Pop/Peek/IsEmpty/Len, the slice-backed stack returns exactly what an abstract stack returns, whatever growth policy append uses.",
  "every history, every capacity growth policy",
  "in-place reuse of the backing array after Pop then Push is history dependent",
  "dsx/slicex/stackx/stackx.go:Push", "dsx/slicex/stackx/stackx.go:Pop", "dsx/slicex/stackx/stackx.go:Peek", "dsx/slicex/stackx/stackx.go:Len", "dsx/slicex/stackx/stackx.go:IsEmpty")
p("Slice list is an indexable sequence",
  "For every history, the slice-backed list behaves like an abstract sequence: Append adds at the end, Insert(i,v) with 0<=i<=Len puts v at position i and shifts the rest, any other index panics; Remove(i)/At(i) return element i for 0<=i<Len and (zero,false) otherwise with no effect; Iterate visits elements in order and stops after the first false; Len counts.",
  "every history, every index, every capacity growth policy",
  "overlapping copy and in-place append are history dependent",
  "dsx/slicex/listx/listx.go:Append", "dsx/slicex/listx/listx.go:Insert", "dsx/slicex/listx/listx.go:Remove", "dsx/slicex/listx/listx.go:At", "dsx/slicex/listx/listx.go:Iterate")
X = "dsx/slicex/slicex.go"
p("Get and Set clamp the index",
  "On a non-empty Slice, Get(i)/Set(i,v) read/write position min(max(i,0),len-1) and change nothing else; on an empty Slice Get returns the zero value and Set does nothing; neither panics.",
  "every slice content, every int index, every value",
  "index domain is all of int64",
  f"{X}:Get", f"{X}:Set", f"{X}:preprocIndexException")
p("Splice replaces exactly the clamped window",
  "Splice(i,j,v...) leaves the slice equal to old[:a]+v+old[b:], where a<=b are i and j clamped to [0,len] and swapped if out of order; Expand, Insert, Cut and Delete are the corresponding special cases: in particular Delete(i) removes exactly element i when 0<=i<len and nothing otherwise. Holds whatever the spare capacity of the slice.",
  "every slice (with any spare capacity and sharing), every pair of int indices, every argument list",
  "append writes in place or reallocates depending on capacity, over memory it is still reading",
  f"{X}:Splice", f"{X}:Expand", f"{X}:Insert", f"{X}:Cut", f"{X}:Delete")
p("Push/Pop and UnShift/Shift make a double-ended queue",
  "For every history of Push, Pop, UnShift and Shift, the Slice returns exactly what an abstract double-ended sequence returns; Pop/Shift on an empty Slice return the zero value and change nothing.",
  "every history, every capacity growth policy",
  "histories are unbounded and in-place splicing is capacity dependent",
  f"{X}:Push", f"{X}:Pop", f"{X}:UnShift", f"{X}:Shift")
p("Copy is independent of the original",
  "The result of Copy() has the same elements as the original, and no later in-place write or append through either one is visible through the other.",
  "every slice, every later sequence of writes",
  "aliasing is only visible through particular later writes",
  f"{X}:Copy")
p("Reverse and Rotate permute positions exactly",
  "Reverse() puts element i at position len-1-i; Rotate(n) puts element (i+n) mod len at position i for every int n (negative n rotates the other way); neither panics and Rotate(-n) undoes Rotate(n).",
  "every slice, every int n",
  "n ranges over int64 including its minimum",
  f"{X}:Reverse", f"{X}:Rotate")
p("Filter, IndexOf, Contains, Each and ForEach visit in order",
  "Filter(f) keeps exactly the elements satisfying f in their order; IndexOf(f) is the least index satisfying f or -1; Contains(f) holds exactly when some element satisfies f; Each/ForEach call f once per element in index order.",
  "every slice, every predicate/callback",
  "quantifies over predicates; Filter compacts in place while reading",
  f"{X}:Filter", f"{X}:IndexOf", f"{X}:Contains", f"{X}:Each", f"{X}:ForEach")
p("Split and Batch partition the slice",
  "For non-negative sizes, the pieces returned by Split(sizes...) concatenate to the original slice, piece k has size sizes[k] as long as elements remain, and a last piece holds any remainder; Batch(n) returns consecutive pieces of n elements (n<=0 counts as 1) with a shorter non-empty last piece, concatenating to the original.",
  "every slice, every list of sizes, every batch size",
  "all sizes including ones that overflow int addition",
  f"{X}:Split", f"{X}:Batch")
p("Slice methods never panic on out-of-range arguments",
  "For every int argument, Extend, Slice, Set, Get, Splice, Expand, Insert, Cut, Delete, Push, Pop, Shift, UnShift, DeleteReplace, Rotate, Repeat and Batch return normally.",
  "every slice, every int argument",
  "the failing arguments are single points of a 64-bit domain",
  f"{X}:DeleteReplace", f"{X}:Repeat", f"{X}:Rotate", f"{X}:Extend", f"{X}:preprocIndexException")
p("Slice, Extend, Clear, Repeat and DeleteReplace have their list meaning",
  "Slice(i,j) keeps the clamped window (negative j counts from the end); Extend(n) appends max(n,0) zero values; Clear empties; Repeat(n) for n>=0 is n-fold concatenation; DeleteReplace(i) for 0<=i<len moves the last element into position i and shortens by one.",
  "every slice, every in-domain int argument",
  "all int arguments",
  f"{X}:Slice", f"{X}:Extend", f"{X}:Clear", f"{X}:Repeat", f"{X}:DeleteReplace")
p("Shuffle is a permutation",
  "Shuffle() leaves the slice a permutation of its old content, whatever the random source returns.",
  "every slice, every sequence of random draws",
  "random source is unbounded",
  f"{X}:Shuffle")
p("Splice leaves its argument slice's memory alone",
  "Calling Splice(i,j,v...) with an existing slice v changes no memory reachable from the caller's other slices that share v's backing array.",
  "every argument slice with any spare capacity and aliasing",
  "needs an argument slice with spare capacity and a second live view of it",
  f"{X}:Splice", f"{X}:Expand")
p("Join separates every element exactly once",
  "Join(sep) is the concatenation of the renderings of the elements in order with sep between each two neighbours and none at the ends.",
  "every slice, every separator, every rendering function",
  "all lengths",
  f"{X}:Join")
# ---------------------------------------------------------------- bitset
B = "dsx/setx/bitsetx/bitsetx.go"
p("Bit set operations act on exactly the named bits",
  "For every word width, Set/Clear/Toggle with a list of non-negative indices set/clear/flip exactly the bits named (Toggle flips by parity of occurrences; indices at or above the width are ignored), leave all other bits alone, and Test(is...) is true exactly when at least one named in-range bit is set; a negative index panics (in Test: unless an index before it already hit).",
  "every width, every word, every index list",
  "2^64 words times all index lists",
  f"{B}:Set", f"{B}:Clear", f"{B}:Toggle", f"{B}:Test")
p("Whole-set operations are exact",
  "IsEmpty/IsFull hold exactly when no/every bit below the width is set; ClearAll/SetAll make them so; ToggleAll flips every bit and is its own inverse.",
  "every width, every word",
  "2^64 words",
  f"{B}:IsEmpty", f"{B}:IsFull", f"{B}:ClearAll", f"{B}:SetAll", f"{B}:ToggleAll")
# ---------------------------------------------------------------- functional / sync
p("Option and Result Match dispatch on construction",
  "Some(x).Match(f,g) runs only f, on x, and returns its result; None().Match(f,g) runs only g; Ok(x)/Err(e).Match likewise run exactly one branch with the stored payload.",
  "every payload, every pair of callbacks",
  "quantifies over callbacks",
  "functionalx/optionx/optionx.go:Match", "functionalx/resultx/resultx.go:Match")
p("Lazy constructs once",
  "For any number of goroutines calling Get with any interleaving, the constructor starts at most once, no Get returns before it has finished, and all Gets that return after it returned normally give the same value: the one it produced.",
  "every number of goroutines, every schedule, every constructor outcome (including panic)",
  "schedules cannot be enumerated",
  "functionalx/lazyx/lazy.go:Get")
p("Typed pool never hands one object to two holders",
  "As long as callers Put only objects they hold and stop using them afterwards, Get never returns an object that is currently held by another caller; every object returned by Get was produced by the Init constructor or Put earlier; Get on a pool with no Init and nothing stored panics.",
  "every history of Get/Put, every choice made by the runtime pool (reuse, drop, create)",
  "the runtime pool's choices are nondeterministic",
  "syncx/syncpoolx/syncpoolx.go:Init", "syncx/syncpoolx/syncpoolx.go:Get", "syncx/syncpoolx/syncpoolx.go:Put")
p("Lock runs the callback under mutual exclusion and terminates",
  "For any number of goroutines calling lockx.Lock(l,f), at most one f runs at a time for a given l, every call eventually can run f and return when scheduled fairly, and the protected word is restored.",
  "every schedule, every number of goroutines, every initial content of the locked variable",
  "schedules and memory contents cannot be enumerated",
  "syncx/lockx/lockx.go:Lock")
# ---------------------------------------------------------------- time
T = "timex/truncatex/truncatex.go"
p("Fixed-period truncation is a floor",
  "For every timestamp, TruncateSec/Min/Hour/Day/Week return the greatest multiple of the period (counted from 0001-01-01 UTC, so weeks start on Monday) that is <= the timestamp; hence result <= sec < result+period, truncation is idempotent and monotone, and nested periods compose (day of hour is day).",
  "every int64 second within time.Time's exact range",
  "2^64 timestamps, negative ones included",
  f"{T}:Truncate", f"{T}:TruncateWeek", f"{T}:TruncateDay", f"{T}:TruncateHour", f"{T}:TruncateMin", f"{T}:TruncateSec")
p("Truncate with an arbitrary period is a floor",
  "Truncate(sec,n) for every n>0 returns the greatest time <= sec that is a whole multiple of n seconds since 0001-01-01 UTC.",
  "every int64 sec and n",
  "the multiplication by time.Second can overflow",
  f"{T}:Truncate")
p("Calendar truncation finds the start of the year and of the month",
  "TruncateYear/TruncateMonth return the first second (UTC, proleptic Gregorian) of the year/month containing the timestamp: result <= sec, sec is before the next year/month start, and both are idempotent.",
  "every timestamp in range",
  "leap-year rules interact with 400-year cycles and negative times",
  f"{T}:TruncateYear", f"{T}:TruncateMonth")
SL = "timex/sleepx/sleepx.go"
p("A sleeper admits one sleeping call at a time",
  "For any interleaving of SleepFor/SleepUntil/SleepForever/Wakeup calls from any number of goroutines, at most one call is sleeping at any time, a call made while another sleeps returns false at once, and the sleeper can be used again after a sleep returns.",
  "every schedule, every number of goroutines",
  "schedules cannot be enumerated",
  f"{SL}:SleepFor", f"{SL}:SleepUntil", f"{SL}:SleepForever")
p("Wakeup wakes the sleeper",
  "Whenever Wakeup returns true, the call that was sleeping (or about to sleep) is woken, i.e. its wait is over; Wakeup with no sleeper returns false and has no effect.",
  "every schedule of sleepers and wakers",
  "needs an unlucky interleaving",
  f"{SL}:Wakeup", f"{SL}:SleepForever")
p("SleepFor waits for the given duration",
  "SleepFor(d) arms its timer with exactly the duration d.",
  "every time.Duration",
  "long durations cannot be waited for in tests",
  f"{SL}:SleepFor")
I = "timex/intersectionx/intersectionx.go"
p("Intersection results are sound",
  "If Intersection(intervals...) reports ok for two or more intervals with non-negative bands and no int64 overflow, then its first result is <= its second result, and there is a number of faults F smaller than half the intervals such that at least M-F of the intervals contain each returned bound and at most F interval midpoints lie outside the returned range.",
  "every list of intervals, every order in which the sort leaves equal offsets",
  "all interval lists; ties are ordered by an unstable sort",
  f"{I}:Intersection", f"{I}:intersection")
p("Intersection finds a full agreement",
  "If all M>=2 intervals overlap in a range of positive length strictly containing every midpoint, Intersection returns exactly (largest lower bound, smallest upper bound, true); with no interval it returns ok=false and with one interval it returns its two bounds.",
  "every list of intervals in strict general position",
  "all interval lists",
  f"{I}:Intersection", f"{I}:intersection")
p("Intersection does not depend on argument order or ties",
  "Intersection gives the same answer for every order of its arguments, and any set of identical intervals intersects in that interval.",
  "every permutation of every list of intervals",
  "ties between equal offsets are resolved by the sort, not by the algorithm",
  f"{I}:Intersection", f"{I}:Less", f"{I}:intersection")
p("Differ measures between the last Start and the last End",
  "GetDiff returns the difference of the clock readings taken by the latest End and the latest Start, and GetStart/GetEnd return these readings, for every order and repetition of calls.",
  "every history of Start/End, every clock",
  "histories and clocks are unbounded",
  "timex/diffx/diffx.go:Start", "timex/diffx/diffx.go:End", "timex/diffx/diffx.go:GetDiff")
# ---------------------------------------------------------------- pool
G = "poolx/gopoolx/timedpool.go"
p("Accepted jobs run exactly once",
  "For a pool without preheated workers, in every schedule of Run callers, workers, idle-worker collection and Stop, every value whose Run returned true is passed to the handler at most once, is never lost (it is queued to a live worker that nobody else will close or reuse until it is handled), and values whose Run returned false are never handled; no send on a closed channel and no double close happens.",
  "every schedule, every number of Run callers, every timing of idle collection and Stop",
  "needs unlucky interleavings of four kinds of goroutine",
  f"{G}:Run", f"{G}:tworker", f"{G}:free", f"{G}:start")
p("Exactly-once also holds with preheated workers",
  "The exactly-once guarantee also holds for pools created with preheat > 0.",
  "every schedule, every preheat count",
  "needs idle collection to win a race against goroutine start-up",
  f"{G}:start", f"{G}:tworker")
p("Worker count is bounded",
  "At every moment of every schedule Workers() <= maxWorkers and Workers() is the number of live worker goroutines.",
  "every schedule, every configuration accepted by NewTimedPool",
  "schedules cannot be enumerated",
  f"{G}:Run", f"{G}:Workers", f"{G}:NewTimedPool", f"{G}:start")
p("A stopped pool accepts nothing and drains",
  "After Stop has taken effect every Run returns false, jobs accepted before still get handled, and once all goroutines have run to completion Workers() is 0.",
  "every schedule in which Stop is called once",
  "schedules cannot be enumerated",
  f"{G}:Stop", f"{G}:free", f"{G}:Run")
p("Idle collection closes exactly the timed-out idle workers",
  "When the idle list is ordered by last-use time, one collection pass removes exactly the workers idle longer than the timeout and keeps the others in order; for any idle list it removes a prefix and loses no worker.",
  "every idle list, every clock reading",
  "binary search boundaries over all list lengths",
  f"{G}:start")
p("Pool construction rejects every invalid configuration",
  "NewTimedPool returns a pool exactly when maxWorkers > 0, the handler is non-nil, idleTimeout > 0 and gcPeriod > 0, and otherwise the error of the first violated condition in that order; preheat never makes a pool start above maxWorkers.",
  "every argument tuple",
  "all int64 configurations",
  f"{G}:NewTimedPool", f"{G}:start")
# ---------------------------------------------------------------- os / config / io
p("Kill-signal handling runs the handler and then closes the channel",
  "For every sequence of received signals the handler runs once per signal, the returned channel is closed after the first handler run and not before, and later signals are handled without crashing.",
  "every number of signals",
  "tests do not send several signals to themselves",
  "osx/closex/closex.go:HandleKillSig")
p("Parameter applies options left to right",
  "Parameter(constructor, f1..fn) calls each option exactly once, in order, each on the previous one's result (nil first), and passes the last result to the constructor.",
  "every list of option functions",
  "all lists of functions",
  "configx/optionalx/optionalx.go:Parameter")
p("usingx.Close closes everything after the body",
  "Close(cs...)(f) runs f first and then closes every closer once in argument order, even if f panics; if f returns it returns exactly the non-nil errors in that order (nil when there are none), and if f panics the panic propagates after the closers ran.",
  "every list of closers, every error pattern, f returning or panicking",
  "all error patterns and panics",
  "iox/usingx/using.go:Close")
D = "iox/decouplex/decouple.go"
p("Decoupler delivers accepted writes intact and at most once",
  "In every interleaving of any number of writers with one reader, each payload shown to Next's view is exactly the payload of one accepted non-empty Write, no accepted Write is shown twice, none is overwritten before being shown, and the fill counter never under- or overflows.",
  "every number of concurrent writers, every schedule of their atomic steps, every payload",
  "lock-free schedules cannot be enumerated",
  f"{D}:Write", f"{D}:Next")
p("Decoupler is a FIFO buffer for sequential use",
  "For sequential callers, Write on a buffer holding fewer than size payloads accepts (returns len(b)), Next shows payloads in the order written and returns false exactly when nothing is buffered.",
  "every size, every sequential history",
  "needs histories with overflow followed by draining",
  f"{D}:Write", f"{D}:Next", f"{D}:NewDecoupler")
p("Decoupler drops exactly when full",
  "A sequential Write calls the drop function exactly when the payload is empty or size payloads are buffered, and returns its result unchanged; dropping leaves buffered payloads intact and later Next calls still return.",
  "every size, every sequential history, every drop function",
  "needs histories with overflow followed by draining",
  f"{D}:Write", f"{D}:Next")
M = "iox/managerx/closex/manager.go"
p("CloseManager closes in registration order and reports every error",
  "Close() calls Close on every registered closer exactly once in registration order even if some fail, and AsErrs of its result is exactly the list of their non-nil errors in order; every later Close repeats this.",
  "every history of Append/Close, every error pattern",
  "all error patterns and histories",
  f"{M}:Append", f"{M}:Close", "iox/managerx/closex/types.go:AsErrs")
p("CloseManager reports success as nil",
  "Close() returns a nil error exactly when no closer failed.",
  "every list of closers",
  "typed-nil interface values look like nil when printed",
  f"{M}:Close")
# ---------------------------------------------------------------- convx
V = "typex/convx/convx.go"
p("Conversion registry returns the latest registration",
  "For every history of Register/Unregister over non-interface types, Exists[T,R] holds exactly when the latest such call for (T,R) was a Register, then Into[T,R](v) is (f(v),true) with the registered f, and otherwise (zero,false); IntoOr returns the alternative exactly when Into fails. Other type pairs are unaffected.",
  "every history, every pair of types, every value",
  "histories over unboundedly many type pairs",
  f"{V}:Register", f"{V}:Unregister", f"{V}:Exists", f"{V}:Into", f"{V}:IntoOr")
p("Registrations for different types never collide",
  "Registering or unregistering a converter for one pair of types never changes Exists/Into for a different pair, for all types including interface types.",
  "every history, every pair of types including interfaces",
  "needs two interface types",
  f"{V}:Register", f"{V}:Unregister", f"{V}:Exists", f"{V}:Into")
W = "typex/convx/converters.go"
p("Integers survive the trip through strings",
  "For every fixed-size integer type T and every value x of T, converting x to string and back to T gives x; the string is the canonical decimal numeral of x.",
  "every width, every value",
  "2^64 values",
  f"{W}:intToString", f"{W}:uintToString", f"{W}:stringToInteger", f"{W}:stringToUinteger")
p("String to integer conversion is total with a fixed default",
  "Converting any string to an integer type never fails: syntactically invalid strings give 0, numerals beyond 64 bits saturate at the 64-bit bound, and the result is then truncated to the target width.",
  "every string",
  "all strings",
  f"{W}:stringToInteger", f"{W}:stringToUinteger")
p("Integer conversions are exact when the value fits",
  "Converting between integer types of any width and signedness gives the unique value of the target type congruent to the source modulo 2^width; hence it is exact whenever the value fits, widening round-trips, and bool/integer conversions satisfy b->int->bool = b and int->bool = (x != 0).",
  "every pair of widths and signednesses, every value",
  "2^64 values times 100 type pairs",
  f"{W}:integerToInteger", f"{W}:boolToInteger", f"{W}:intToBool", f"{W}:boolToString", f"{W}:stringToBool")
p("Runes and bytes survive the trip through strings",
  "bytes->string->bytes is the identity for all byte sequences; runes->string->runes is the identity for every sequence of valid Unicode scalar values; string->runes->string is the identity exactly on valid UTF-8, and invalid bytes become U+FFFD.",
  "every byte sequence, every rune sequence",
  "all byte sequences",
  f"{W}:stringToBytes", f"{W}:bytesToString", f"{W}:stringToRunes", f"{W}:runesToString")
# ---------------------------------------------------------------- crypto
H = "cryptox/passhashx/passhash.go"
VS = "cryptox/passhashx/internal/passhash.vstruct.go"
p("Password hash records round-trip",
  "For every parameter, salt and hash, the serialized record validates and its Param/Salt/Hash accessors return exactly what was stored; its length is 17+len(salt)+len(hash).",
  "every parameter byte, every salt and hash byte sequence",
  "all byte sequences",
  f"{VS}:New_PasswordHash", f"{VS}:Serialize_PasswordHash", f"{VS}:Vstruct_Validate", f"{VS}:Param", f"{VS}:Salt", f"{VS}:Hash")
p("Verify never panics on untrusted bytes",
  "For every byte sequence whatsoever, Vstruct_Validate returns normally, and if it returns true all accessors return normally; Verify returns an error or nil and never panics.",
  "every byte sequence",
  "adversarial 64-bit offsets",
  f"{VS}:Vstruct_Validate", f"{VS}:Salt", f"{VS}:Hash", f"{H}:Verify")
p("Verify accepts what Hash produced",
  "For every password, every valid security level and every salt drawn, Hash succeeds and Verify(password, result) is nil; an invalid level or a failing random source gives the documented error.",
  "every password, level, salt and KDF function",
  "all passwords and salts",
  f"{H}:Hash", f"{H}:Verify", "cryptox/passhashx/alg.go")
p("Verify accepts exactly matching records",
  "Verify(password, rec) is nil exactly when rec validates, names a known algorithm, and that algorithm applied to password and the stored salt yields exactly the stored hash; in particular a password whose derived key differs is rejected with the mismatch error, and truncating the stored hash never helps.",
  "every password and every byte sequence",
  "all byte sequences",
  f"{H}:Verify")
p("Base64 form is equivalent to the binary form",
  "HashBase64 output uses only the URL-safe alphabet without padding, decodes to the binary record, and VerifyBase64(password, HashBase64(password)) is nil; a string with a character outside the alphabet is rejected with an error.",
  "every byte sequence, every password",
  "all byte sequences",
  f"{H}:HashBase64", f"{H}:VerifyBase64")
p("CBC encryption round-trips on whole blocks",
  "For every key and every data whose length is a multiple of 16, DecryptCBC(EncryptCBC(data,key),key) = data and the ciphertext is 16 bytes longer; for other lengths Encrypt does not silently corrupt (it panics), and decrypting input shorter than the IV does not return.",
  "every key, data, IV and block cipher permutation",
  "all data and keys",
  "cryptox/aesx/cbcx.go:EncryptCBC", "cryptox/aesx/cbcx.go:DecryptCBC")
p("CTR encryption round-trips on all data",
  "For every key and every data, DecryptCTR(EncryptCTR(data,key),key) = data and the ciphertext is 16 bytes longer.",
  "every key, data, IV and block function, including counter wrap-around",
  "all data and keys",
  "cryptox/aesx/ctrx.go:EncryptCTR", "cryptox/aesx/ctrx.go:DecryptCTR")
p("GCM encryption round-trips and rejects what the AEAD rejects",
  "For every key and data, DecryptGCM(EncryptGCM(data,key),key) = data; DecryptGCM returns an error (and no data) exactly when the AEAD rejects nonce and ciphertext.",
  "every key, data, nonce",
  "all data and keys",
  "cryptox/aesx/gcmx.go:EncryptGCM", "cryptox/aesx/gcmx.go:DecryptGCM")
p("Decryption of arbitrary input returns an error instead of panicking",
  "DecryptCBC, DecryptCTR and DecryptGCM return (data, nil) or (nil, error) for every input byte sequence.",
  "every byte sequence",
  "short and ragged inputs from the network",
  "cryptox/aesx/cbcx.go:DecryptCBC", "cryptox/aesx/ctrx.go:DecryptCTR", "cryptox/aesx/gcmx.go:DecryptGCM")
p("bcrypt wrapper accepts exactly the encrypted password",
  "Encrypt rejects exactly the passwords longer than 72 bytes; for every other password Decrypt(Encrypt(pw),pw) is (true,nil); and two passwords that differ are never both accepted for the same record.",
  "every password pair",
  "all passwords; the collision needs more than 72 bytes or embedded NULs",
  "cryptox/bcryptx/bcryptx.go:Encrypt", "cryptox/bcryptx/bcryptx.go:Decrypt")
# ---------------------------------------------------------------- algo
p("Binary search finds the leftmost position",
  "On a sorted slice Search returns the number of elements smaller than x as index, and found exactly when x occurs; on any slice found=true implies the element at the index equals x and the index is within 0..len. SearchCustom does the same for any comparison consistent with the order of the slice.",
  "every slice, every target, every consistent comparison function",
  "all lengths and contents",
  "algox/searchx/searchx.go:Search", "algox/searchx/searchx.go:SearchCustom")
p("Sorting sorts in the requested direction",
  "Sort(s,reverse) leaves s a permutation of its old content in ascending order if reverse is false and descending order if it is true; SortReverse/SortStable/SortStableReverse likewise, the stable ones keeping equal elements in their order; IsSorted/IsSortedReverse tell exactly whether s is ascending/descending.",
  "every slice, both directions, every correct sorting routine underneath",
  "all slices",
  "algox/sortx/sortx.go:Sort", "algox/sortx/sortx.go:SortReverse", "algox/sortx/sortx.go:SortStable", "algox/sortx/sortx.go:IsSorted")
p("An idle pool accepts work",
  "When every accepted job is done, no Run is under way and the pool is not stopped, the next Run returns true (idle or collected workers never use up the pool's capacity).",
  "every schedule, every preheat count",
  "needs idle collection to win a race against goroutine start-up",
  "poolx/gopoolx/timedpool.go:Run",
  "poolx/gopoolx/timedpool.go:start",
  "poolx/gopoolx/timedpool.go:tworker")
p("Every Stop call returns",
  "Every call of Stop can return, whatever the collector is doing and whoever else calls Stop.",
  "every schedule of any number of Stop calls",
  "needs concurrent Stop calls",
  "poolx/gopoolx/timedpool.go:Stop",
  "poolx/gopoolx/timedpool.go:start")
p("Decoupler: Next returns once all writers have returned",
  "When something is buffered and no Write call is under way, a call to Next shows a payload and returns instead of waiting.",
  "every size, every number of writers, every schedule",
  "needs a compare-and-swap lost at a particular moment",
  "iox/decouplex/decouple.go:Next",
  "iox/decouplex/decouple.go:Write")
p("One text form per password record",
  "A string accepted by VerifyBase64 is the base64 encoding of the record it decodes to; the text form of a record cannot be changed without the change being noticed.",
  "every string",
  "needs a different last character or newlines",
  "cryptox/passhashx/passhash.go:VerifyBase64",
  "cryptox/passhashx/passhash.go:HashBase64")
p("Counter modes do not reuse counter blocks and notice changes",
  "Within one CTR or GCM message no counter block is used twice, and GCM's data blocks never use the counter of the tag or of the hash key; and a ciphertext changed on the way is not decrypted without an error.",
  "every IV, nonce, message and change",
  "needs messages near the wrap-around, and all changes",
  "cryptox/aesx/ctrx.go:EncryptCTR",
  "cryptox/aesx/ctrx.go:DecryptCTR",
  "cryptox/aesx/gcmx.go:EncryptGCM")
p("Every pair of basic types has a converter from the start",
  "After the package is initialised, Exists holds for every pair of the numeric types, string and bool, for string/[]byte and string/[]rune in both directions and for []byte and []rune with themselves, and for no other pair of these types; Into gives the value the pair of types calls for (congruent integer, nearest float, truncated float, numeral, and so on). Calls of Register and Unregister for other pairs, interface types included, do not change this.",
  "All pairs of the 16 types, all values, all histories of further calls for other pairs, 32 and 64 bit int.",
  "202 registrations written by hand: a slip in one line shows only for one pair of types, and the later history of the registry is unbounded.",
  "typex/convx/init.go:3-206",
  "typex/convx/converters.go:9-101",
  "typex/convx/convx.go:11-67")
p("Integers survive the trip through floats",
  "Converting an integer to a float type and back gives the integer; the float is the one nearest to the integer, order is kept; converting a float to an integer type drops the fraction when the result fits; float32 to float64 and back is the identity; booleans become 1 and 0, and every float but the zeros becomes true.",
  "All integers of all widths, all floats of both formats, any behaviour for values that do not fit.",
  "Rounding errors start beyond 2^53 (2^24), at ties and at the edges of the range; samples miss them.",
  "typex/convx/converters.go:9-11",
  "typex/convx/converters.go:60-69")
p("Floats survive the trip through strings and decimals are rounded once",
  "Converting a float to a string and back gives the same float, infinities and NaN included; converting a decimal to a float type gives the float of that type nearest to it.",
  "All floats of both formats, all decimals of any length, every library that meets the documentation of strconv.",
  "Double rounding shows only for decimals within 2^-53 of the middle between two float32 values.",
  "typex/convx/converters.go:21-23",
  "typex/convx/converters.go:35-38")
p("An ordered map can be changed while Range goes through it",
  "Range does not panic whatever its callback does to the map; every visited entry is in the map at that moment, with its current value; keys ascend; an entry that was there at the start and is not deleted before its turn is visited, and so is an entry added ahead of the loop; nothing is visited after stop. Deleting entries on the way leaves exactly the others.",
  "All ordered key types, all maps (histories of Set, Del, Clear), all callbacks with any state, all skip list heights.",
  "The callback and the map are unbounded, and what happens depends on whether the removed node is the one the iterator stands on and what was inserted around it afterwards.",
  "dsx/mapx/ordmapx/ordmapx.go:65-76",
  "dsx/mapx/sklmapx/sklmapx.go:213-225")
p("A slice can be changed while its loops go through it",
  "Each, ForEach, IndexOf, Contains and Iterate call the callback once for each element the slice had when they started, in order and with its value, also when the callback changes the slice; they always end; Filter keeps the elements for which the callback returned true.",
  "All slices (any sharing of memory, any growth of append), all callbacks with any state making any calls of Push, Pop, Shift, UnShift, Insert, Delete, Set, Reverse, Clear.",
  "Depends on the capacity at the time of the call: the same program sees different elements when append moves the slice.",
  "dsx/slicex/slicex.go:145-155",
  "dsx/slicex/slicex.go:207-235",
  "dsx/slicex/listx/listx.go:38-44")
p("The registry of converters is safe for concurrent use",
  "No goroutine accesses the map of converters while another one changes it; every lookup answers with the newest registration; the registry does not change while a converter runs; each call takes effect once, in program order; all calls end, also calls that converters make.",
  "All numbers of goroutines, all programs of Register, Unregister, Exists and Into calls, all converters with any nested calls, all schedules.",
  "Schedules are unbounded, and whether nested read locks block depends on a writer arriving in between.",
  "typex/convx/convx.go:8-59")
p("A close manager is safe for concurrent use",
  "A Close closes exactly the closers appended before it, each once and in the order of Append, with no Append or Close of the same manager in between; calls follow the programs of the goroutines and of the closers; all calls end, also when closers use managers.",
  "All numbers of goroutines and managers, all programs of Append and Close calls, all closers with any nested calls, all schedules.",
  "Managers can be nested to any depth and be shared by any number of goroutines; deadlocks depend on the schedule.",
  "iox/managerx/closex/manager.go:14-40")
p("Lazy values can be built from lazy values",
  "For lazies whose constructors get other lazies, concurrently from any number of goroutines: each constructor runs at most once, every Get returns the value the definitions give, and every Get ends.",
  "All families of lazies (any dependencies and constructors), all programs of Get calls, all schedules.",
  "Dependencies and schedules are unbounded; the deadlocks of cyclic families depend on the schedule.",
  "functionalx/lazyx/lazy.go:5-23")
p("A view that panics does not damage the Decoupler",
  "If the function given to Next panics and the caller recovers, the Decoupler is in a state that calls which do not panic could have led to: accepted writes are still delivered intact, and the write whose view panicked is shown again by the next Next.",
  "All schedules of any number of writers and a reader, all moments of panics, as long as fewer than 2^64-2 tickets were taken.",
  "A panic can come at any point of any schedule.",
  "iox/decouplex/decouple.go:Next")
p("A closer that panics does not keep the others open",
  "If a closer panics and the caller recovers, every other closer of the manager (or of usingx.Close) is closed exactly once, and the manager can be used again.",
  "All lists of closers, all positions of panics, all errors, any number of Close calls.",
  "Which closers are left open depends on the position of the panic and on deferred calls.",
  "iox/managerx/closex/manager.go:Close",
  "iox/usingx/using.go:Close")
p("A callback that panics does not damage the slice",
  "If the callback of Filter, IndexOf, Contains, Each or ForEach panics and the caller recovers, the slice has the elements it had before, and no other memory was written.",
  "All slices over all memory, all callbacks, all positions of the panic.",
  "The damage depends on how many elements were dropped before the panic.",
  "dsx/slicex/slicex.go:Filter")
p("A call that panics does not block the concurrent map",
  "For every comparable key type, interface types included: if a call panics because its key cannot be hashed and the caller recovers, every call that does not panic itself can return.",
  "All schedules of any number of goroutines, all sets of keys that cannot be hashed.",
  "Whether a call blocks depends on what every other goroutine did before; a blocked call cannot be told from a slow one.",
  "dsx/mapx/syncmapx/syncmapx.go:Get",
  "dsx/mapx/syncmapx/syncmapx.go:Has",
  "dsx/mapx/syncmapx/syncmapx.go:Set",
  "dsx/mapx/syncmapx/syncmapx.go:Delete")
p("The skip list loses nothing, whatever the keys",
  "For all keys in constraints.Ordered, NaN included, and even for comparisons that contradict each other: no call panics or hangs; Set adds one entry or replaces the value of one with an equal key; Del removes one entry with an equal key or none; all other entries stay where they are; Keys, Values, Len and the iterator show the same entries.",
  "All comparisons, all histories, all seeds.",
  "With NaN the outcome of a search depends on the random heights; the claim is about every shape of the list.",
  "dsx/mapx/sklmapx/sklmapx.go:search",
  "dsx/mapx/sklmapx/sklmapx.go:insert",
  "dsx/mapx/sklmapx/sklmapx.go:delete")
p("The ordered map lists the keys it has, whatever the keys",
  "For all keys in constraints.Ordered, NaN included: Get gives the latest value set under an equal key, and Keys lists the keys that Get finds.",
  "All symmetric and transitive ==, all <, all histories, all seeds.",
  "The two halves of the map are searched in different ways, and NaN makes them disagree.",
  "dsx/mapx/ordmapx/ordmapx.go:Set",
  "dsx/mapx/ordmapx/ordmapx.go:Del",
  "dsx/mapx/ordmapx/ordmapx.go:Keys",
  "dsx/mapx/ordmapx/ordmapx.go:Values",
  "dsx/mapx/ordmapx/ordmapx.go:Range")
p("The concurrent map finds the keys it lists",
  "For all comparable keys, those with k != k included: Has finds what Keys lists, and Get gives the latest value set under an equal key.",
  "All symmetric and transitive ==, all histories.",
  "Keys with k != k hide in structs, arrays and interfaces.",
  "dsx/mapx/syncmapx/syncmapx.go:Set",
  "dsx/mapx/syncmapx/syncmapx.go:Delete",
  "dsx/mapx/syncmapx/syncmapx.go:Keys",
  "dsx/mapx/syncmapx/syncmapx.go:Has")
p("A deque used at one end is a stack",
  "For all histories of PushFront, PopFront and PeekFront only, and for all histories of PushBack, PopBack and PeekBack only, emptying included, the linked deque gives the results of a stack.",
  "All histories at one end, all element types, all nodes the pool may hand out.",
  "A wrong result needs an emptied deque and a recycled node from a longer chain; sync.Pool makes that depend on the garbage collector.",
  "dsx/linkedx/dequex/dequex.go:PushFront",
  "dsx/linkedx/dequex/dequex.go:PopFront",
  "dsx/linkedx/dequex/dequex.go:PushBack",
  "dsx/linkedx/dequex/dequex.go:PopBack")
p("autotidy and autoupdate run once in every directory",
  "For every directory tree, the go command runs exactly once in every directory that is not in or below one named vendor or .git, with that directory as its working directory.",
  "All directory trees, all permissions.",
  "The results of Chdir and the error given to the callback are thrown away; what happens then depends on permissions and on how WalkDir reports errors.",
  "cmd/autotidy/autotidy.go:main",
  "cmd/autoupdate/autoupdate.go:main")
p("autotidy and autoupdate keep out of vendor and .git",
  "For every directory tree, no command runs in or below a directory named vendor or .git, or outside the tree, and the process ends in the directory it was started in.",
  "All directory trees, all permissions.",
  "A failed Chdir is ignored, so a command may run in a directory it was not meant for; a test shows this for the trees it tries.",
  "cmd/autotidy/autotidy.go:main",
  "cmd/autoupdate/autoupdate.go:main")
p("The pool of goroutines has no data races",
  "In no execution are two goroutines about to use the same field of the pool or of a worker, one of them writing it, without both holding the mutex.",
  "Every size and number of preheated workers, any number of concurrent Run and Stop calls, every schedule.",
  "The race detector reports the races of the schedules it sees; the collector must come by in the short time before a new goroutine reads its channel.",
  "poolx/gopoolx/timedpool.go:tworker",
  "poolx/gopoolx/timedpool.go:start",
  "poolx/gopoolx/timedpool.go:free",
  "poolx/gopoolx/timedpool.go:Run",
  "poolx/gopoolx/timedpool.go:Stop")
p("The Decoupler hands over copies",
  "The bytes a view reads are the bytes the slice had when Write was called, even if the caller changes its slice after Write has returned, the view writes to bytes it has read, and other goroutines write to other slots meanwhile; no byte is used by two goroutines at a time; the slice given to a view keeps its bytes after the view has returned.",
  "Every size, any number of writers and payloads, every interleaving of single bytes, every growth of the slots.",
  "The slots reuse their memory; a torn payload needs an unlucky schedule, and a kept slice changes only when the slot is used again.",
  "iox/decouplex/decouple.go:Write",
  "iox/decouplex/decouple.go:Next")
p("Iterate of the linked list with callbacks that change the list",
  "When Iterate is over and the callback did not stop it, all elements that were there at the start and are still there were handed out, in order and each once, whatever the callback did to the list; in particular a callback that removes the elements it does not like sees every element once and leaves exactly the others.",
  "Every history of the list, every behaviour of the node pool, every callback with a state of its own that calls the methods of the list, any number of rounds.",
  "The loop reads next of a node that may be in the pool or in use again; what it finds depends on the pool and on all calls since.",
  "dsx/linkedx/listx/listx.go:Iterate",
  "dsx/linkedx/listx/listx.go:Remove",
  "dsx/linkedx/listx/listx.go:Append")
p("Concurrent map with any key type: linearizable, race free, every call returns",
  "With any number of goroutines and any key type, also one with keys that do not equal themselves, every history of syncmapx is linearizable: each call acts at one moment on the history of Set, Delete and Clear before it, Keys, Values and Size counting a key that does not equal itself once per Set. No goroutine accesses the map while another modifies it, and without new calls every execution ends with all calls returned.",
  "Every key type with symmetric and transitive ==, every number of goroutines, every schedule, every order of range.",
  "The race detector and tests see a few schedules with keys that equal themselves; entries under NaN can be duplicated and are only seen by range loops.",
  "dsx/mapx/syncmapx/syncmapx.go:Get",
  "dsx/mapx/syncmapx/syncmapx.go:Keys",
  "dsx/mapx/syncmapx/syncmapx.go:Values",
  "dsx/mapx/syncmapx/syncmapx.go:Size",
  "dsx/mapx/syncmapx/syncmapx.go:Set",
  "dsx/mapx/syncmapx/syncmapx.go:Delete",
  "dsx/mapx/syncmapx/syncmapx.go:Clear")
p("Idle workers are stopped when their time has come",
  "A pass of the collector stops exactly those workers in the idle list whose handler returned longer ago than the idle timeout; it never stops a worker that has a job.",
  "Every execution of the pool with a clock that does not go back: any number of workers, jobs, Stop calls, any schedule, any timeout.",
  "Which worker reaches the lock first after stamping itself is up to the scheduler; the list is searched as if it were ordered by the stamps.",
  "poolx/gopoolx/timedpool.go:start",
  "poolx/gopoolx/timedpool.go:free")
p("The Decoupler with several readers",
  "However many goroutines call Next: every payload is shown at most once and as it was given, and what was accepted and not yet shown lies intact in a slot of its own.",
  "Every execution with any number of writers and readers, any size, any payloads, up to 2^64-2 attempts.",
  "The losses need two readers between the load of the slot and its release at the same time, and a writer in between.",
  "iox/decouplex/decouple.go:Write",
  "iox/decouplex/decouple.go:Next")
p("Intersection finds the agreement of any majority",
  "For intervals whose edges and midpoints do not coincide, Intersection reports the range from the first to the last point that lies in all but F of the intervals, for the smallest F for which at most F midpoints lie outside; it reports none only if there is no such F that leaves a majority.",
  "every list of two or more intervals with non-negative bands, no int64 overflow and no coinciding edges or midpoints of different kinds",
  "all interval lists and fault numbers; whether the loop over the faults goes far enough shows only for odd numbers of intervals with exactly half of them at fault, rounded down",
  "timex/intersectionx/intersectionx.go:Intersection",
  "timex/intersectionx/intersectionx.go:intersection")
p("Clear empties a skip-list map for its iterators too",
  "After Clear, and whatever is then set and deleted, Next gives the smallest key now in the map after the key the iterator stands on, or ok = false if there is none.",
  "every history before and after Clear, every position of the iterator, every totally ordered key type",
  "the iterator walks nodes that are no longer in the map, and tells the end by an address that Clear replaced",
  "dsx/mapx/sklmapx/sklmapx.go:Clear",
  "dsx/mapx/sklmapx/sklmapx.go:Next")
p("The pieces of Split and Batch can be used separately",
  "After Split or Batch, a method call on one of the pieces leaves the elements of every other piece as they were.",
  "every slice, every list of sizes, every sequence of method calls on the pieces, every growth policy of append",
  "the pieces share one array; whether a call writes into a neighbour depends on capacities, not on the elements a test compares",
  "dsx/slicex/slicex.go:Split",
  "dsx/slicex/slicex.go:Batch")
p("The Decoupler keeps the order of one producer",
  "With one goroutine that writes and one that reads, and no payload dropped, the payloads are shown in the order in which they were written; Next does not wait once the writes have returned; and when Next returns false everything written has been shown.",
  "every size, every sequence of payloads, every interleaving of producer and reader",
  "the failure needs the reader to make room between two steps of one Write",
  "iox/decouplex/decouple.go:Write",
  "iox/decouplex/decouple.go:Next")
p("A Sleeper can be shared by goroutines without data races",
  "No two goroutines using one Sleeper are ever about to access the same non-atomic field with one of them writing it.",
  "every number of goroutines, every interleaving of SleepFor, SleepUntil, SleepForever and Wakeup",
  "the window is between two adjacent instructions; the race detector only sees the schedules that are run",
  "timex/sleepx/sleepx.go:Wakeup",
  "timex/sleepx/sleepx.go:SleepFor")
p("Custom is the instant of the given Unix time",
  "Custom(sec, nsec) is the instant sec seconds and nsec nanoseconds after 1970-01-01 UTC, for negative numbers and numbers of more than a second too.",
  "every two int64 numbers",
  "the carry between the two numbers and the range cannot be gone through by examples",
  "timex/timex.go:Custom")
p("SleepUntil sleeps until the instant has come",
  "A call of SleepUntil(t) that nobody wakes returns when t has come, not before, and its timer does not run on once it has.",
  "every time, every reading of the clock, with or without monotonic readings",
  "the failing instants are centuries ahead",
  "timex/sleepx/sleepx.go:SleepUntil",
  "timex/timex.go:Now")
p("CBC decryption notices changes",
  "A message written by EncryptCBC that was changed on its way is not decrypted to other data as if nothing had happened.",
  "every block cipher, every key, every message and every change that keeps its length",
  "a statement about all messages an attacker can write",
  "cryptox/aesx/cbcx.go:DecryptCBC",
  "cryptox/aesx/cbcx.go:EncryptCBC")
p("A converted slice belongs to the caller",
  "A slice that a conversion returns shares no memory with any slice the program has: what is written through the one is not seen through the other.",
  "every memory, every string and slice, every surplus of capacity, every sequence of writes and appends",
  "a test sees one capacity and the writes it makes",
  "typex/convx/converters.go:bytesToBytes",
  "typex/convx/converters.go:stringToBytes")
p("The zero value of a container is an empty container",
  "A container that was declared and not made by its constructor shows, for every sequence of calls, what an empty one made by New shows.",
  "every sequence of calls on each container, with panics recovered, every choice of the pools, every growth of a slice",
  "tests use New; a declared container shows its faults only on the calls that need what New sets up",
  "dsx/linkedx/queuex/queuex.go:New",
  "dsx/linkedx/dequex/dequex.go:New",
  "dsx/linkedx/stackx/stackx.go:New",
  "dsx/linkedx/listx/listx.go:New",
  "dsx/slicex/queuex/queuex.go:New",
  "dsx/slicex/stackx/stackx.go:New",
  "dsx/mapx/syncmapx/syncmapx.go:New",
  "dsx/mapx/sklmapx/sklmapx.go:New",
  "dsx/mapx/ordmapx/ordmapx.go:New")
p("The implementations of a dsx interface are interchangeable",
  "A program over dsx.Stack or dsx.List sees the same results with the linked and with the slice implementation, and one over dsx.Queue the same with the linked queue as with a ring that has room for all its elements.",
  "every sequence of interface calls, every choice of the pools, every growth of a slice, every memory, every capacity of the ring",
  "a test runs one program against one implementation; which programs can tell them apart is a statement about all programs",
  "dsx/dsx.go:Stack",
  "dsx/dsx.go:Queue",
  "dsx/dsx.go:List",
  "dsx/linkedx/stackx/stackx.go:New",
  "dsx/slicex/stackx/stackx.go:New",
  "dsx/linkedx/queuex/queuex.go:New",
  "dsx/slicex/queuex/queuex.go:New",
  "dsx/linkedx/listx/listx.go:New",
  "dsx/slicex/listx/listx.go:New")
p("Close managers in close managers close everything and report exactly the failures",
  "Close of a manager with managers registered returns, has called every closer below it in order of registration, and its error list has exactly the errors of those closers; usingx.Close over managers returns nil when nothing failed.",
  "all registrations of closers and managers with managers, cyclic ones included, all effects and results of the closers, all error texts",
  "tests close one manager with plain closers; nesting, sharing and cycles of managers are a property of the graph",
  "iox/managerx/closex/manager.go:Close",
  "iox/managerx/closex/manager.go:Append",
  "iox/managerx/closex/types.go:Error",
  "iox/managerx/closex/types.go:AsErrs",
  "iox/usingx/using.go:Close")
p("After sorting, Search finds exactly what is in the slice",
  "After each of Sort, SortReverse, SortStable and SortStableReverse, Search reports an element as found exactly when it was in the slice before sorting.",
  "all slices over a linear order, all elements searched for, all sorting routines that keep their promise, both flags",
  "tests sort and search separately on fixed slices; that the two fit together for every slice and direction is a statement about both",
  "algox/sortx/sortx.go:Sort",
  "algox/sortx/sortx.go:SortReverse",
  "algox/sortx/sortx.go:SortStable",
  "algox/sortx/sortx.go:SortStableReverse",
  "algox/searchx/searchx.go:Search",
  "algox/searchx/searchx.go:SearchCustom")
p("The value of a lazy does not depend on the order of Gets",
  "For lazies whose constructors get other lazies, may panic and may recover: two programs that get lazies in any order and both get one of them see the same, the same value or both a panic.",
  "all families of constructors (what they get next may depend on what they got), all sequences of Get calls with panics recovered",
  "tests get lazies in one order; the effect of a panic shows in lazies built later from the zero value",
  "functionalx/lazyx/lazy.go:Get",
  "functionalx/lazyx/lazy.go:New")
p("When Next returns false, everything accepted was shown",
  "When a call of Next on a Decoupler returns false, the payload of every Write that had returned without dropping it has been shown.",
  "all sizes, all payloads, any number of concurrent calls of Write, one reader, all interleavings",
  "whether a Write is between storing and counting when Next looks is decided by the scheduler; a test drains after the writers have finished",
  "iox/decouplex/decouple.go:Next",
  "iox/decouplex/decouple.go:Write")
p("A Write on a Decoupler waits for nobody",
  "Wherever the other goroutines have been stopped, a call of Write that goes on alone returns: it accepts or drops its payload.",
  "all sizes, all payloads, any number of concurrent calls of Write, one reader, every state of every interleaving",
  "a test cannot stop a goroutine between two given instructions, and cannot tell a call that never returns from a slow one",
  "iox/decouplex/decouple.go:Write",
  "iox/decouplex/decouple.go:Next")
p("Run on a goroutine pool returns, and what it accepted is handled",
  "In every fair execution each call of Run returns. If it returned true its job is handed to the handler, exactly once; if it returned false the job is never handed over. This holds even if the handlers of other jobs never return.",
  "all positive maxima, all preheat counts, any number of concurrent calls, every infinite fair execution",
  "that something happens in the end cannot be seen by a test that stops after a while, and a test sees one schedule",
  "poolx/gopoolx/timedpool.go:Run",
  "poolx/gopoolx/timedpool.go:tworker",
  "poolx/gopoolx/timedpool.go:free")
p("A stopped pool drains",
  "After Stop has returned, if handlers return, there is a moment from which on no worker goroutine of the pool is left and Workers() is 0. A Stop call that is the only one returns.",
  "all positive maxima, all preheat counts, any number of concurrent calls, every infinite fair execution",
  "that something happens in the end, and stays so, cannot be seen by a test that stops after a while; a test sees one schedule",
  "poolx/gopoolx/timedpool.go:Stop",
  "poolx/gopoolx/timedpool.go:start",
  "poolx/gopoolx/timedpool.go:tworker",
  "poolx/gopoolx/timedpool.go:free")
p("A slice under any calls is a list",
  "Whatever the methods called on one Slice, in any order and with any arguments, what they return and the elements at the end are those of the same operations on a plain list, and the calls that panic are the same.",
  "all element types, all slices with any spare capacity and any sharing of their memory, all histories of calls of all methods, all int arguments, any growth chosen by append, any random source",
  "each method keeps or drops spare capacity, moves the start of the window and leaves old values behind; that no order of calls lets one of these show through is about all histories",
  "dsx/slicex/slicex.go:Splice",
  "dsx/slicex/slicex.go:Slice",
  "dsx/slicex/slicex.go:Rotate",
  "dsx/slicex/slicex.go:Filter",
  "dsx/slicex/slicex.go:Repeat")
p("A binary search asks a logarithmic number of questions",
  "SearchCustom on a slice of fewer than 2^k elements calls the comparison at most k+1 times, each time with an element of the slice first and the value looked for second, even if the comparison is inconsistent. It panics exactly if a call of the comparison panics, which is then the last call; else it returns a position in 0..len.",
  "all element types, all slices, all k, all comparisons: with memory, inconsistent, panicking",
  "a bound for all lengths and all comparisons, and that no comparison sees its arguments swapped, is not settled by samples",
  "algox/searchx/searchx.go:SearchCustom",
  "algox/searchx/searchx.go:Search")
p("Who keeps calling Wakeup wakes the sleeper",
  "If some goroutine calls Wakeup again and again, every SleepForever returns. Every SleepFor and SleepUntil returns even without that, and every Wakeup returns.",
  "any number of goroutines making any calls, every infinite fair execution",
  "that a call returns in the end cannot be seen by a test that stops after a while, and the execution in which it does not needs two overlapping calls",
  "timex/sleepx/sleepx.go:SleepForever",
  "timex/sleepx/sleepx.go:Wakeup",
  "timex/sleepx/sleepx.go:SleepFor",
  "timex/sleepx/sleepx.go:SleepUntil")
p("A Write on a decoupler returns",
  "If the callers stop making new calls, every Write returns, whether or not anybody calls Next; and a Write can be kept waiting only by other Writes that are accepted.",
  "any size from 1, any number of goroutines, every infinite fair execution",
  "that a call returns in the end cannot be seen by a test that stops after a while, and the executions in which it does not are infinite or 2^64 steps long",
  "iox/decouplex/decouple.go:Write",
  "iox/decouplex/decouple.go:Next")
p("The agreement of intervals does not depend on the clock",
  "Reading all the intervals on another clock, with another zero, another unit, or running backwards, gives the same agreement read on that clock, and none where there was none.",
  "all lists of intervals whose bounds are int64s on both clocks, all orders an unstable sort may leave",
  "it relates infinitely many runs, and the result depends on how the sort orders equal offsets",
  "timex/intersectionx/intersectionx.go:Intersection",
  "timex/intersectionx/intersectionx.go:intersection")
p("A linked container hands out only what was put into it",
  "Every element that a linked queue, stack, list or deque returns with ok = true or gives to a callback was put into that container by an earlier call.",
  "all histories of calls on each container, all choices of the node pool",
  "the pool may hand back any node at any time, with stale links and stale data; the histories are unbounded",
  "dsx/linkedx/queuex/queuex.go:Dequeue",
  "dsx/linkedx/stackx/stackx.go:Pop",
  "dsx/linkedx/listx/listx.go:Remove",
  "dsx/linkedx/dequex/dequex.go:PopFront",
  "dsx/linkedx/dequex/dequex.go:PopBack")
p("The failure of a closer can be found in the error that Close returns",
  "errors.Is on the result of CloseManager.Close finds a target exactly when one of the closers failed with it, and AsErrs finds the failures wherever the caller wraps or joins the result.",
  "all histories of Append and Close, all errors of the closers (with Is methods and wrapped errors), all ways to wrap and join the result, all targets",
  "errors wrap each other in unboundedly many ways; a test shows one of them",
  "iox/managerx/closex/types.go:AsErrs",
  "iox/managerx/closex/types.go:ErrorList",
  "iox/managerx/closex/manager.go:Close")
p("A pool works on at most maxWorkers jobs at a time",
  "At no moment are more than maxWorkers jobs between being taken on by Run and the return of the handler; a pool with one worker is a serial executor: when Run takes a job on, the handler has returned from every job taken on before.",
  "all schedules of Run, workers, clean-up and Stop, all maxWorkers and preheat counts, any set of jobs",
  "two handlers overlap only in some schedules; users leave locks out of the handler because of this",
  "poolx/gopoolx/timedpool.go:Run",
  "poolx/gopoolx/timedpool.go:NewTimedPool")
p("Shuffle is fair",
  "Every arrangement of the elements comes from the same number of sequences of draws of the random source, of which there are n!; so with a fair source every arrangement is equally likely.",
  "all slices, also with equal elements, all arrangements",
  "n! arrangements; frequencies in a test prove nothing",
  "dsx/slicex/slicex.go:Shuffle")
p("Times can be grouped by second, minute, hour, day, month and year",
  "TruncateMonth and TruncateYear respect the order of times, so times of one month or year are consecutive; and the units nest: truncating to a finer unit before or after truncating to a month or a year changes nothing, and the year of a month start is the year.",
  "all times the time package can date",
  "boundaries of months and leap years of all years",
  "timex/truncatex/truncatex.go:TruncateYear",
  "timex/truncatex/truncatex.go:TruncateMonth",
  "timex/truncatex/truncatex.go:TruncateDay")
p("A call on a skip-list map compares few keys, whatever the heights",
  "After every history and with every seed, a Get, Set, Del or Seek of a key compares only keys that are present: those smaller than the key in increasing order and each at most once, the others at most 16 times in all by <, and one by !=. So a call makes at most 17 comparisons more than there are smaller keys.",
  "every seed, every history of Set, Del and Clear, every key",
  "the worst case over all tower heights the generator can draw",
  "dsx/mapx/sklmapx/sklmapx.go:search",
  "dsx/mapx/sklmapx/sklmapx.go:Get",
  "dsx/mapx/sklmapx/sklmapx.go:Set",
  "dsx/mapx/sklmapx/sklmapx.go:Del",
  "dsx/mapx/sklmapx/sklmapx.go:Seek")
p("What a record can make Verify do is bounded",
  "Whatever bytes are given as a record, Verify and VerifyBase64 derive at most one key, from the password as it is and a salt that is part of the record, with one of the few built-in costs; bytes that are no record or name an unknown algorithm make it derive none. Hash derives exactly with the drawn salt, and the password reaches the result only through the derived key.",
  "every password, every byte sequence offered as a record, every key derivation function",
  "all byte sequences an attacker may offer; what is not called cannot be seen in a result",
  "cryptox/passhashx/passhash.go:Verify",
  "cryptox/passhashx/passhash.go:VerifyBase64",
  "cryptox/passhashx/passhash.go:Hash")
p("A slice kept with Search, Insert and Delete is a sorted collection",
  "If elements are added at the index Search reports, removed at it when it reports them found, or only added when it does not, then after any history every call has returned, the slice is in order and holds exactly what a multiset would hold, and every search reported whether its element was there. The content depends only on that multiset; adding only absent elements keeps a set; adding all elements of a list one by one sorts it.",
  "every totally ordered element type, every sorted start, every history, every growth of the backing arrays",
  "two packages have to agree on what an index means for every content, including ends, repeats and reallocations",
  "algox/searchx/searchx.go:Search",
  "dsx/slicex/slicex.go:Insert",
  "dsx/slicex/slicex.go:Delete")
p("What was removed from a container is not kept alive by it",
  "Once a key or value has been deleted, popped, overwritten or cleared, it can no longer be reached by following pointers from the container, so the garbage collector may free it; what is still in the container can be reached.",
  "every history, every seed of the skip list, every choice of recycled nodes",
  "memory reachability is not visible in results and depends on the whole history of pointers",
  "dsx/mapx/sklmapx/sklmapx.go:Del",
  "dsx/linkedx/stackx/stackx.go:Pop",
  "dsx/linkedx/queuex/queuex.go:Dequeue",
  "dsx/linkedx/listx/listx.go:Remove",
  "dsx/linkedx/dequex/dequex.go:PopFront",
  "dsx/slicex/queuex/queuex.go:Dequeue",
  "dsx/slicex/slicex.go:Pop")
p("Conversions can be chained",
  "A number that every type on the way can hold arrives unchanged through any number of Into calls, whichever way is taken, also through strings and floats and back to bool. If a value survives the trip to a type and back, converting through that type is converting directly.",
  "every chain of built-in types, every number, every registration of converters for other pairs",
  "chains of any length over all pairs of types and all values",
  "typex/convx/convx.go:Into",
  "typex/convx/converters.go:integerToInteger",
  "typex/convx/converters.go:stringToInteger",
  "typex/convx/init.go:init")
p("Handlers can give their own pool more work",
  "If a handler passes the children of its job to Run on its own pool and handles itself what Run rejects, then every job of the trees is handled exactly once, no handler waits for ever on its own pool, and with finitely many jobs the walk ends, however small the pool is and even if it is stopped meanwhile.",
  "all trees of jobs, all numbers of workers and preheat counts, any number of goroutines that start, all schedules, Stop at any time",
  "deadlocks and lost or doubled jobs depend on the interleaving of handlers, Run, Stop and the collector",
  "poolx/gopoolx/timedpool.go:Run",
  "poolx/gopoolx/timedpool.go:tworker",
  "poolx/gopoolx/timedpool.go:free",
  "poolx/gopoolx/timedpool.go:Stop")
p("A converter that panics does not block the registry",
  "A converter may panic or end its goroutine: the lock of the registry is released, the map is never accessed while another goroutine changes it, lookups still answer with the newest registration, each goroutine does what its program says (up to the recovering caller), and if converters do not use the registry themselves all calls come to an end.",
  "all numbers of goroutines, all programs of Register, Unregister, Exists and Into with recovering callers, all converters, all schedules",
  "a lock that stays held after a panic shows only in schedules where somebody registers afterwards; all nestings of converters and recovering callers matter",
  "typex/convx/convx.go:Register",
  "typex/convx/convx.go:Unregister",
  "typex/convx/convx.go:Exists",
  "typex/convx/convx.go:Into")
p("A skip-list map can be shared behind an RWMutex",
  "Goroutines that hold a sync.RWMutex for writing around Set, Del and Clear, and for reading around Get, Seek, Len, Keys, Values, ToMap and String of one skip-list map, see one map: the calls are linearizable, nobody is in the map while it is modified, and all calls return. Reading calls change nothing, so many may run at once. Without the lock two Set calls can hide a key that was set.",
  "all key types with a total order, all numbers of goroutines and calls, all schedules of the single node visits, all level draws",
  "the read calls share nodes and follow pointers in lock-step with others; a write hidden in Get or in an iterator would show only in particular overlaps",
  "dsx/mapx/sklmapx/sklmapx.go:search",
  "dsx/mapx/sklmapx/sklmapx.go:Get",
  "dsx/mapx/sklmapx/sklmapx.go:Keys",
  "dsx/mapx/sklmapx/sklmapx.go:Seek",
  "dsx/mapx/sklmapx/sklmapx.go:Next",
  "dsx/mapx/sklmapx/sklmapx.go:Set")
p("Kill handlers may wait for each other",
  "A program calls HandleKillSig several times and its handlers wait for the channels of others. After one signal every handler runs once and every channel is closed, each after the channels its handler waited for, in every schedule, exactly if the handlers can be put in an order in which each waits for earlier ones only; handlers that wait in a circle never return. A second signal after that crashes the program.",
  "all numbers of registrations, all waiting relations, all schedules of the runtime and the goroutines",
  "the order in which a signal reaches the registrations and the goroutines run is not under control of a test, and a deadlock on shutdown needs the right relation",
  "osx/closex/closex.go:HandleKillSig")
p("Edits of a slice can be taken back",
  "A program that notes before each call on a Slice the call that takes it back (Delete for Insert, Pop for Push, Rotate(-n) for Rotate(n), Set with the old element for Set, Splice with the old window for Splice, and so on) can take back any number of its newest edits: the noted calls return and the slice holds exactly what it held before. Delete(i) takes Insert(i, v) back exactly if i was in range.",
  "all element types, all slices with any spare capacity, all histories of calls of all methods with int arguments that do not overflow, all growth of the backing arrays and all shuffles",
  "the calls clamp, swap and overflow their indices in different ways, and share memory with the arrays the noted values come from; only all index combinations show that each pair fits",
  "dsx/slicex/slicex.go:Splice",
  "dsx/slicex/slicex.go:Insert",
  "dsx/slicex/slicex.go:Delete",
  "dsx/slicex/slicex.go:DeleteReplace",
  "dsx/slicex/slicex.go:Rotate",
  "dsx/slicex/slicex.go:Slice")
p("A minority of wrong clocks does not lead Intersection astray",
  "If the true time is in more than half of the intervals given to Intersection, then an interval that is reported with ok = true contains the true time.",
  "all lists of intervals with non-negative bands and bounds that are int64s, every true time, every order in which the unstable sort leaves equal offsets",
  "the wrong intervals are arbitrary; only a counting argument over all of them shows what they can and cannot do to the result",
  "timex/intersectionx/intersectionx.go:Intersection",
  "timex/intersectionx/intersectionx.go:intersection")
p("The example program prints the converted values",
  "Every run of test/main.go ends without a panic and prints 123456, true, 5678, the random bytes as two small hexadecimal digits each, and \"true true\": no conversion falls back to its default, and the converter the program registers for a type of its own is used. From the fourth line the bytes can be told.",
  "all contents of the random buffer, 32-bit and 64-bit platforms",
  "a run shows one random buffer; that no buffer makes the conversion fall back or changes another line needs all of them",
  "test/main.go:main",
  "typex/convx/convx.go:IntoOr",
  "typex/convx/convx.go:Register")
p("A ring can stand between one goroutine that puts in and one that takes out",
  "While one goroutine calls Enqueue and IsFull of a ring queue, another may call Dequeue, Peek and IsEmpty without a lock: the calls behave like calls on a bounded queue made one after the other, elements come out in the order they went in, no call waits for the other goroutine, and there is no data race.",
  "all capacities, all sequences of calls, all interleavings of the single reads and writes of memory",
  "needs every interleaving of the memory accesses of two goroutines",
  "dsx/slicex/queuex/queuex.go:Enqueue",
  "dsx/slicex/queuex/queuex.go:Dequeue",
  "dsx/slicex/queuex/queuex.go:IsFull",
  "dsx/slicex/queuex/queuex.go:IsEmpty",
  "dsx/slicex/queuex/queuex.go:Peek")
p("Slices of one program do not affect each other",
  "In a program that makes its slices with New and Copy and calls any methods on them, a call on one slice changes nothing that another slice shows, and each slice behaves like a list of its own.",
  "all programs over any number of slices, all arguments, all growth of capacities",
  "needs every mixture of calls on several slices that share one memory",
  "dsx/slicex/slicex.go:New",
  "dsx/slicex/slicex.go:Copy",
  "dsx/slicex/slicex.go:Splice")
p("With fair coins a call on a skip-list map compares few keys on average",
  "After any history, the mean number of key comparisons of a Get, Set, Del or Seek over all outcomes of the coin tosses that decide the heights is at most 32 plus one for every 32768 present keys smaller than the one asked for.",
  "all histories of Set, Del and Clear, all keys, all outcomes of the coin tosses",
  "a mean over all outcomes for maps of all sizes cannot be measured",
  "dsx/mapx/sklmapx/sklmapx.go:rand_height",
  "dsx/mapx/sklmapx/sklmapx.go:search",
  "dsx/mapx/sklmapx/sklmapx.go:insert",
  "dsx/mapx/sklmapx/splitmix64.go:splitmix64")
p("A container keeps no more nodes in memory than it needs for what is in it",
  "After any history the number of nodes that the garbage collector has to keep because of a container is bounded by the number of elements in it: one node for each element, or for 64 elements in a deque, plus a constant.",
  "all histories, all choices of the pool which nodes to hand out",
  "what the garbage collector must keep is not visible to a test, and it depends on the whole history and on the pool",
  "dsx/mapx/sklmapx/sklmapx.go:delete",
  "dsx/linkedx/stackx/stackx.go:Pop",
  "dsx/linkedx/queuex/queuex.go:Dequeue",
  "dsx/linkedx/listx/listx.go:Insert",
  "dsx/linkedx/dequex/dequex.go:PushFront")
p("An ordered map can be shared behind an RWMutex",
  "Goroutines that share an ordered map and hold a sync.RWMutex for reading around Get, Len, Keys, Values and Range and for writing around Set, Del and Clear see one ordered map: the calls take effect one after the other between their start and their return, Values and Range pair every key with its value at that moment, Range gives its callback the entries in order up to the first stop, no call is in the map while another modifies it, and every call returns.",
  "all schedules of any number of goroutines, all calls, all callbacks that stop by what they were given",
  "the result depends on the interleaving of the node by node reads; a test sees a few schedules",
  "dsx/mapx/ordmapx/ordmapx.go:Set",
  "dsx/mapx/ordmapx/ordmapx.go:Values",
  "dsx/mapx/ordmapx/ordmapx.go:Range")
p("A typed pool hands objects on as they were put",
  "When callers keep the rules in the comments of the package, Get never returns nil and never panics after Init; an object taken from the pool is held by nobody else, was put before and has the content it was put with, so objects put in a state that New could have left come out in such a state; and a goroutine that holds an object reads what it wrote itself since it got it, or else what it got. Each rule is needed: breaking it has an execution in which the promise fails.",
  "all executions of any number of goroutines, all contents, all choices of sync.Pool and of the garbage collector",
  "which object sync.Pool returns, and whether it returns one at all, depends on the processor and on garbage collections; a test sees one choice",
  "syncx/syncpoolx/syncpoolx.go:Get",
  "syncx/syncpoolx/syncpoolx.go:Put",
  "syncx/syncpoolx/syncpoolx.go:Init")
p("A pool turns a job down only when all its workers are taken",
  "While a pool is not stopped, Run turns a job down only if maxWorkers jobs are in progress; and callers who keep trying get jobs taken on.",
  "all reachable states of a pool without preheated workers, all maximal numbers of workers; for the second part all fair executions",
  "the refusals that break it happen in the few instructions between the return of a handler and the free list, or during a collection; a test meets them by chance",
  "poolx/gopoolx/timedpool.go:Run",
  "poolx/gopoolx/timedpool.go:start",
  "poolx/gopoolx/timedpool.go:free")
p("With fair coins a call on a skip-list map is rarely slow",
  "Let m present keys be smaller than the key of a Get, Set, Del or Seek, and m at most 2^L with L from 1 to 16. Of all ways the coins can fall, the part in which the call makes 17 + r comparisons of keys or more is at most 3 * 2^(L-1) * (2/3)^r; for larger m a factor (1 + 1/2^L)^m takes the place of 3. Of a history of n at most 2^L updates, the part in which any update makes that many is at most n times this.",
  "all histories, calls, seeds and ordered key types, all r, all ways the coins can fall",
  "slow cases are exponentially rare; a test draws a few heights and meets none of them",
  "dsx/mapx/sklmapx/sklmapx.go:search",
  "dsx/mapx/sklmapx/sklmapx.go:rand_height")
p("A program that closes its manager on a kill signal closes everything once",
  "With HandleKillSig(func() { manager.Close() }, logger) and goroutines that register closers at any time: when the returned channel is closed, every closer whose Append has returned has been closed exactly once; and once a signal has come the channel is closed in the end.",
  "all executions: any number of goroutines that call Append, any number of signals at any time; for the second part all fair executions",
  "what matters is whether an Append or a second signal falls between two steps of the shutdown; a test sends one signal at one moment",
  "osx/closex/closex.go:HandleKillSig",
  "iox/managerx/closex/manager.go:Append",
  "iox/managerx/closex/manager.go:Close")
p("A stack or queue behind a mutex hands every element on exactly once",
  "Goroutines that share a dsx.Stack or dsx.Queue and hold a mutex around every call, unlocking with defer, hand elements on: every element that a Pop or Dequeue returns was put in by a Push or Enqueue of its own that is not later; no element is handed out twice; and when a Pop or Dequeue finds nothing, everything put in by calls that had returned before it started has been taken. All calls return.",
  "all schedules of any number of goroutines, all calls, all choices of the node pool and of append, all four implementations",
  "lost and doubled elements depend on which calls of which goroutines come in between; a test tries a few orders",
  "dsx/slicex/stackx/stackx.go:Pop",
  "dsx/slicex/queuex/queuex.go:Dequeue",
  "dsx/linkedx/stackx/stackx.go:Pop",
  "dsx/linkedx/queuex/queuex.go:Dequeue")
p("Goroutines can work on the pieces of Split and Batch at the same time",
  "If the pieces that Split or Batch returned are given to different goroutines, each of them can call methods on its piece while the others do the same: it gets the results it would get alone, no element is used by two of them, and the slice that was split ends up showing what each made of its part.",
  "for all slices, sizes, numbers of goroutines, sequences of calls and interleavings of single reads and writes",
  "the number of interleavings of element accesses is unbounded; a test run shows one of them",
  "dsx/slicex/slicex.go:Batch",
  "dsx/slicex/slicex.go:Split",
  "dsx/slicex/slicex.go:Push",
  "dsx/slicex/slicex.go:Reverse",
  "dsx/slicex/slicex.go:Filter")
p("Goroutines that share lazies see the same of each, also when constructors panic",
  "Goroutines get lazies whose constructors get other lazies, chosen by what they got so far, may panic and may recover from panics of others. All Get calls of one lazy give the same. Every constructor runs at most once, and if no lazy needs itself all goroutines come to an end.",
  "for all constructors, numbers of goroutines, programs of Get calls and interleavings of the steps of sync.Once",
  "which goroutine runs which constructor and where it is interrupted depends on the schedule; nested constructors hold several mutexes at once, and a deadlock shows in few schedules",
  "functionalx/lazyx/lazy.go:New",
  "functionalx/lazyx/lazy.go:Get")
p("Goroutines that use different bits of a bit set do not disturb each other",
  "If every goroutine uses its own bits of a shared bit set, its Set, Clear, Toggle and Test calls do to these bits and give what they would if it were alone.",
  "for all widths, words, numbers of goroutines, programs of calls on disjoint bits and interleavings of single reads and writes of the word",
  "a lost update needs two goroutines between a read and a write at the same moment; test runs rarely hit it and passing ones say nothing about the other interleavings",
  "dsx/setx/bitsetx/bitsetx.go:Set",
  "dsx/setx/bitsetx/bitsetx.go:Clear",
  "dsx/setx/bitsetx/bitsetx.go:Toggle",
  "dsx/setx/bitsetx/bitsetx.go:Test")
p("A copy of a slice stack or slice list is independent of the original",
  "After assigning one Stack or List variable of the slice packages to another, calls on one do not change what calls on the other give.",
  "for all element types, memories, capacities chosen by append and programs of assignments and method calls over any number of variables",
  "whether two copies share a place depends on the capacity append happened to choose; tests see one choice and a few orders of calls",
  "dsx/slicex/stackx/stackx.go:Push",
  "dsx/slicex/stackx/stackx.go:Pop",
  "dsx/slicex/listx/listx.go:Append",
  "dsx/slicex/listx/listx.go:Insert",
  "dsx/slicex/listx/listx.go:Remove")
p("An iterator of a skip-list map survives any Set and Del calls",
  "If a map is changed by any Set and Del calls during an iteration, also of the key the iterator stands on, Next returns keys in ascending order, every entry it gives was in the map at some time since the iteration began, no key that was there all the time is missed, and Next does not panic before it has returned ok = false.",
  "for all totally ordered key types, histories, positions where the iteration begins and interleavings of Set, Del and Next",
  "a removed node keeps its next pointers of the moment it was removed, so what Next gives depends on the order of all calls since; tests try a few orders",
  "dsx/mapx/sklmapx/sklmapx.go:Next",
  "dsx/mapx/sklmapx/sklmapx.go:Set",
  "dsx/mapx/sklmapx/sklmapx.go:Del",
  "dsx/mapx/sklmapx/sklmapx.go:Seek")
p("Sorting by one key after another with SortStableCustom sorts by all keys",
  "Calling SortStableCustom once for each of several comparisons, the least important first, leaves the slice as one SortStableCustom with the combined comparison would: in the order of the most important comparison that tells two elements apart, with elements that none tells apart in their old order.",
  "for all element types, slices, lists of strict weak orderings and correct stable sorting routines",
  "a routine that is not stable, or not for long slices, gives the right result on the small or lucky inputs of a test",
  "algox/sortx/sortx.go:SortStableCustom",
  "algox/sortx/sortx.go:SortCustom")
p("Goroutines can update entries of a shared map with Get and Set",
  "When goroutines update entries of one Map with m.Set(k, f(m.Get(k))), for example to count, then when all are done the map is as if the updates had been made one after another in some order: no update is lost.",
  "for all key and value types, maps, numbers of goroutines, lists of updates and schedules, with or without a mutex of the program",
  "an update is lost only when two goroutines come between Get and Set of the same key at the same time, which a test rarely provokes; and each method alone is safe, so the race detector is silent",
  "dsx/mapx/syncmapx/syncmapx.go:Get",
  "dsx/mapx/syncmapx/syncmapx.go:Set")
p("Programs may treat the calls of a concurrent map as single steps",
  "Goroutines that run any programs and share one Map reach, with all locks and loops of its methods, the same local states as if every call were made at once; they do not deadlock, and they come to an end if they do when every call is made at once.",
  "for all programs of any number of goroutines, key types with symmetric and transitive ==, value types and schedules",
  "a test runs one program under few schedules; that reasoning with whole calls is sound for all programs is a statement about all of them",
  "dsx/mapx/syncmapx/syncmapx.go:Get",
  "dsx/mapx/syncmapx/syncmapx.go:Has",
  "dsx/mapx/syncmapx/syncmapx.go:Keys",
  "dsx/mapx/syncmapx/syncmapx.go:Set",
  "dsx/mapx/syncmapx/syncmapx.go:Delete",
  "dsx/mapx/syncmapx/syncmapx.go:Clear")
p("A concurrent map can serve as a cache",
  "A program that answers a request for a key with m.Get(k) if m.Has(k), and otherwise computes the value, stores it with m.Set and answers with it, answers every request with the value of the key, in any number of goroutines, also while entries are dropped with Delete and Clear.",
  "for all functions, key and value types, lists of requests of any number of goroutines and schedules",
  "the wrong answer needs a Delete between two calls of another goroutine; a test would have to hit that moment",
  "dsx/mapx/syncmapx/syncmapx.go:Has",
  "dsx/mapx/syncmapx/syncmapx.go:Get",
  "dsx/mapx/syncmapx/syncmapx.go:Set",
  "dsx/mapx/syncmapx/syncmapx.go:Delete")
p("A loop over the keys of a concurrent map finds its entries",
  "for _, k := range m.Keys() { out = append(out, entry{k, m.Get(k)}) } finds the entries that the map had at some moment, while other goroutines use the map.",
  "for all programs of the other goroutines, numbers of loops, key types with symmetric and transitive ==, value types and schedules",
  "a torn copy needs two Sets of another goroutine between two Gets; a test would have to hit these moments, and it cannot show what is guaranteed in all of them",
  "dsx/mapx/syncmapx/syncmapx.go:Keys",
  "dsx/mapx/syncmapx/syncmapx.go:Get",
  "dsx/mapx/syncmapx/syncmapx.go:Set",
  "dsx/mapx/syncmapx/syncmapx.go:Delete",
  "dsx/mapx/syncmapx/syncmapx.go:Clear")
p("Goroutines can go through a shared skip-list map with iterators",
  "Goroutines that share a SkipListMap behind a sync.RWMutex and hold the lock for one call at a time can go through it with Next while others Set and Del: the keys come in ascending order, each with a value it had since the loop began, no key is missed that was there all the time, what nobody touched is given exactly, Next does not panic, and the loops end when the others do.",
  "for all programs of the other goroutines without Clear, numbers of loops, ordered key types, value types, seeds and schedules",
  "whether an iterator meets a deleted node or a node set meanwhile depends on the schedule; a test runs few of them",
  "dsx/mapx/sklmapx/sklmapx.go:Next",
  "dsx/mapx/sklmapx/sklmapx.go:Iterator",
  "dsx/mapx/sklmapx/sklmapx.go:Set",
  "dsx/mapx/sklmapx/sklmapx.go:Del")
p("Programs may treat the calls of a skip-list map or ordered map behind an RWMutex as single steps",
  "Goroutines that run any programs and share a SkipListMap or OrderedMap behind a sync.RWMutex, with all steps of the mutex and of the searches and loops, reach the same local states as if every call were made at once on a mathematical map; they do not deadlock, and they come to an end if they do when every call is made at once.",
  "for all programs of any number of goroutines, ordered key types, value types, seeds and schedules",
  "a test runs one program under few schedules; that reasoning with whole calls is sound for all programs is a statement about all of them",
  "dsx/mapx/sklmapx/sklmapx.go:Get",
  "dsx/mapx/sklmapx/sklmapx.go:Set",
  "dsx/mapx/sklmapx/sklmapx.go:Del",
  "dsx/mapx/sklmapx/sklmapx.go:Keys",
  "dsx/mapx/ordmapx/ordmapx.go:Set",
  "dsx/mapx/ordmapx/ordmapx.go:Range")
p("Results that pool handlers store in a concurrent map are all there when the pool is done",
  "When the handler of a TimedPool stores the result of its job in a concurrent map under a key of the job's own, then at every moment the map holds the results of jobs that Run accepted, each stored once, and of all jobs whose handlers have returned; whenever Workers returns 0 it holds exactly the results of the jobs for which Run returned true; a Get that begins after a job's handler has returned gives the job's result; and some time after Stop all results are there. Handlers do not deadlock on the map.",
  "for all jobs, numbers of workers and of goroutines that run, stop or read, key types (also those where == is not reflexive), value types and schedules",
  "the last results may still be on their way when a test looks, and whether they are depends on the schedule",
  "poolx/gopoolx/timedpool.go:Run",
  "poolx/gopoolx/timedpool.go:Stop",
  "poolx/gopoolx/timedpool.go:Workers",
  "dsx/mapx/syncmapx/syncmapx.go:Set",
  "dsx/mapx/syncmapx/syncmapx.go:Get")
p("Several calls on a container between a Lock and an Unlock of the program are one step",
  "When goroutines use a skip-list map, an ordered map or a linked stack only inside sections of a sync.RWMutex, any number of calls in each, with only reading calls under RLock, then every state they reach is one of whole sections made one after the other on a mathematical map or stack; what every section keeps when it runs alone is seen by every reading section; no schedule deadlocks or panics, and programs without endless loops end. So transfers between entries are never lost and audits never see a half-made one, look-up-or-create gives everybody the same value, and taking from a linked stack with Peek and Pop in one section gives a correct stack although Pop alone does not return what it removes. A lock around every single call gives none of this.",
  "for all programs, numbers of goroutines, keys, values, transfers and schedules",
  "what goes wrong without sections shows only in particular interleavings, and that nothing goes wrong with them is about all interleavings",
  "dsx/mapx/sklmapx/sklmapx.go:Get",
  "dsx/mapx/sklmapx/sklmapx.go:Set",
  "dsx/mapx/sklmapx/sklmapx.go:search",
  "dsx/mapx/ordmapx/ordmapx.go:Set",
  "dsx/linkedx/stackx/stackx.go:Pop",
  "dsx/linkedx/stackx/stackx.go:Peek")
p("Goroutines that take jobs from a shared stack and store the results in a concurrent map do every job exactly once and stop",
  "Programs that use several containers, each behind a lock of its own, reach nothing that they do not reach with all calls on all containers made at once and one after the other; they do not deadlock. So when goroutines push jobs on a slice stack (under a mutex), take jobs from it until it is empty and store each result in a concurrent map, then in every schedule no job is done twice, the goroutines all stop, and when they have stopped the stack is empty and the map has the result of every job and nothing else.",
  "for all numbers of goroutines, lists of jobs, result functions, key equalities (also non-reflexive) and schedules",
  "a job lost or done twice between the two containers shows only in particular interleavings of calls on both, and that the goroutines stop only when all is done is about every schedule",
  "dsx/slicex/stackx/stackx.go:Push",
  "dsx/slicex/stackx/stackx.go:Pop",
  "dsx/mapx/syncmapx/syncmapx.go:Set",
  "dsx/mapx/syncmapx/syncmapx.go:Get")
p("The text of a password record tells everything that Verify looks at",
  "String of a PasswordHash returns for every byte slice without panicking. For a record it shows the algorithm's name, the salt and the hash, for anything else one fixed text. Two byte slices with the same text are treated the same by Verify for every password; for a known algorithm the text determines algorithm, salt and hash. Match calls exactly the handler of the algorithm that String names, and none when the algorithm is unknown.",
  "for all byte slices of any length and capacity, passwords and key derivation functions",
  "that no two different salts, hashes or algorithms run together in one text is a statement about all pairs of records",
  "cryptox/passhashx/internal/passhash.vstruct.go:String",
  "cryptox/passhashx/internal/passhash.vstruct.go:Match",
  "cryptox/passhashx/internal/passhash.vstruct.go:MatchS",
  "cryptox/passhashx/passhash.go:Verify")
p("No call on a locked container waits for ever",
  "In every fair execution every call on a concurrent map returns, although other goroutines go on calling the same map without end. The same holds for skip-list maps and ordered maps behind an RWMutex and for the stacks and queues behind a mutex, also for calls that panic. With a lock that let readers pass a waiting writer, a Set could wait for ever.",
  "for all endless executions with any number of goroutines and calls, all key types, keys and values",
  "a test sees a finite part of an execution; that a call never returns shows in no finite part",
  "dsx/mapx/syncmapx/syncmapx.go:Get",
  "dsx/mapx/syncmapx/syncmapx.go:Keys",
  "dsx/mapx/syncmapx/syncmapx.go:Set",
  "dsx/mapx/syncmapx/syncmapx.go:Delete",
  "dsx/mapx/sklmapx/sklmapx.go:Set",
  "dsx/mapx/ordmapx/ordmapx.go:Set",
  "dsx/slicex/stackx/stackx.go:Pop",
  "dsx/linkedx/queuex/queuex.go:Dequeue")
p("What is stored in a concurrent map becomes visible to all who ask",
  "Once a Set has returned, every later Has for the key answers yes and every later Get returns a value that was stored under the key, as long as nobody deletes the key or clears the map. In a fair execution every Set that was called comes to be seen, for finitely many keys from one moment on, so that a goroutine that asks again and again until the keys are there comes to an end, although others go on using the map.",
  "for all endless executions with any number of goroutines and calls, all key types with symmetric and transitive ==, keys and values",
  "that somebody who polls goes on for ever, or misses a value, depends on the schedule and shows in no finite part of an execution",
  "dsx/mapx/syncmapx/syncmapx.go:Set",
  "dsx/mapx/syncmapx/syncmapx.go:Has",
  "dsx/mapx/syncmapx/syncmapx.go:Get")
p("A converter registry can be used and changed at the same time",
  "Whatever goroutines register, unregister, look up and convert at the same time, the registry behaves like one history of registrations in which every call takes place at one moment between its start and its end, and a conversion is done by the converter registered last at that moment. No converter is at work while the registry is changed, several can be at work at the same time. In a fair execution every call returns. Once a Register has returned, every later Into, IntoOr and Exists for the pair finds a converter that was registered for it, as long as nobody unregisters it.",
  "for all executions with any number of goroutines and calls, all concrete types, values, converters and starting histories, all durations of the converters",
  "the schedules of unboundedly many goroutines, and whether a converter is used that was already replaced, cannot be enumerated; that a call waits for ever shows in no finite part of an execution",
  "typex/convx/convx.go:Register",
  "typex/convx/convx.go:Unregister",
  "typex/convx/convx.go:Exists",
  "typex/convx/convx.go:Into",
  "typex/convx/convx.go:IntoOr")
p("A close manager that goroutines share is one list of closers and loses no failure",
  "Whatever goroutines append and close at the same time, the manager behaves like one list: every call takes place at one moment between its start and its end, and a Close calls all closers that are in the list at its moment, once each and in order, and returns exactly their errors. In a fair execution every call returns. A closer whose Append has returned is called by every Close that starts later, and if it fails its error is in what AsErrs finds in the result.",
  "for all executions with any number of goroutines and calls, all closers with any effects and errors",
  "the schedules of unboundedly many goroutines cannot be enumerated, and which closers a Close has to report depends on the moment at which it gets the lock",
  "iox/managerx/closex/manager.go:Append",
  "iox/managerx/closex/manager.go:Close",
  "iox/managerx/closex/types.go:AsErrs")
p("A skip-list map can be read page by page",
  "A program that keeps the last key of a page and later reads the next page with Seek(last) and up to n Next calls gets the first n entries after that key that the map has then: keys ascend from page to page, none comes twice, every entry was in the map when its page was read, and when a page is not full no key has been missed that was there whenever a page was read.",
  "for all totally ordered key types, page sizes, seeds, and all Set, Del and Clear calls between the pages",
  "which keys are deleted and set between two pages, and where a page ends, are unbounded choices; a test reads pages of a map that does not change",
  "dsx/mapx/sklmapx/sklmapx.go:Seek",
  "dsx/mapx/sklmapx/sklmapx.go:Next",
  "dsx/mapx/sklmapx/sklmapx.go:Iterator")
p("A skip-list map behind a mutex is a priority queue",
  "Goroutines that share a skip-list map behind a mutex, put entries in with Get and Set (a key that is taken is refused) and take the first one out with Iterator, Next and Del, have a priority queue: every call takes place at one moment, each accepted entry is handed out at most once, a pop that starts after an entry was accepted returns a smaller key unless the entry is taken, two pops in a row give ascending keys unless the second entry came late, all calls return, and an entry is served once there are more pops than calls that put in smaller keys.",
  "for all totally ordered key types, value types, seeds, numbers of goroutines, calls and schedules; the last two for fair executions",
  "the order of the calls of the goroutines, the keys and their number are unbounded, and that an entry is served is about infinite executions",
  "dsx/mapx/sklmapx/sklmapx.go:Next",
  "dsx/mapx/sklmapx/sklmapx.go:Del",
  "dsx/mapx/sklmapx/sklmapx.go:Set",
  "dsx/mapx/sklmapx/sklmapx.go:Get",
  "dsx/mapx/sklmapx/sklmapx.go:Iterator")
p("A bit set behind a mutex hands out numbers",
  "Goroutines that share a bit set behind a mutex and take the first number below a limit for which Test is false and Set it, and Clear it later, have a pool of numbers: no number is handed out a second time unless it was given back in between, a goroutine is told that there is none only when all are in use, and all calls return.",
  "for all widths of the word, limits, numbers of goroutines, calls and schedules",
  "the width, the limit and the order of calls of the goroutines are unbounded; a test with few numbers never comes to the width of the word",
  "dsx/setx/bitsetx/bitsetx.go:Set",
  "dsx/setx/bitsetx/bitsetx.go:Test",
  "dsx/setx/bitsetx/bitsetx.go:Clear",
  "dsx/setx/bitsetx/bitsetx.go:IsFull")
p("Password records in a concurrent map",
  "In a server whose goroutines hash new passwords with Hash and Set the record in a shared syncmapx.Map, Verify what Get returns at a login, and Delete users, a login never panics and is let in only with a password that has the key of one that was set for this user and may be the current one; it is let in when all the changes that may be the last one set its password and one of them had returned; it is refused when they all removed the user or set passwords with other keys; and all map calls return under a fair scheduler.",
  "for all numbers of goroutines, users, passwords, levels, salts and schedules",
  "which change is the last one before a login depends on the schedule, and the passwords are unbounded",
  "cryptox/passhashx/passhash.go:Hash",
  "cryptox/passhashx/passhash.go:Verify",
  "dsx/mapx/syncmapx/syncmapx.go:Get",
  "dsx/mapx/syncmapx/syncmapx.go:Set",
  "dsx/mapx/syncmapx/syncmapx.go:Delete")
p("A password can be changed with the old one only once",
  "When two goroutines change the password of a user with Verify of the old password against Get of a shared syncmapx.Map and then Set of the Hash of a new one, and the old password is no good for either new record, at most one of them goes through.",
  "for all key derivation functions, passwords, salts, goroutines and schedules",
  "whether both look up the old record before either stores a new one depends on the schedule",
  "cryptox/passhashx/passhash.go:Hash",
  "cryptox/passhashx/passhash.go:Verify",
  "dsx/mapx/syncmapx/syncmapx.go:Get",
  "dsx/mapx/syncmapx/syncmapx.go:Set")

out = os.path.join(os.path.dirname(__file__), "..", "properties.jsonl")
with open(out, "w") as f:
    for n, (t, s, q, w, a) in enumerate(P, 1):
        f.write(json.dumps({"id": f"C{n:02d}", "title": t, "statement": s, "quantifier": q, "why_tests_cant": w, "anchors": a}, ensure_ascii=False) + "\n")
print(len(P))
