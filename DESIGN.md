# Formal model of unsafe-risk/utilx in Lean 4

## Layout

    lean/Verif/Go/*.lean            the Go semantics the models share (outcomes, int64, slices over a heap, sync.Pool)
    lean/Verif/<Pkg>/Model.lean     the model of one package of /repo; every definition cites file:lines
    lean/Verif/<Pkg>/Spec.lean      the specification: plain lists / finite maps / predicates, no reference to the model
    lean/Verif/<Pkg>/Lemmas.lean    helper lemmas and invariants
    lean/Verif/<Pkg>/Props.lean     the property theorems (named `Cnn_...`) and their non-vacuity examples
    properties.jsonl                the properties; MANIFEST.json maps them to theorems
    seeded/LOG.jsonl                wrong-program experiments (mutations of the model) and what failed

A theorem that proves only part of its property ends in `_partial`; a theorem that shows the code violates the property
as stated ends in `_refuted` and gives a concrete witness.  Both are listed in MANIFEST.json with the missing part named.

## Conventions

* A Go call that can panic returns `Outcome α` = `ret a | panic`.  The state after a panic (visible through `recover`)
  is modelled wherever the property quantifies over histories that may continue.
* `int`/`int64` are `Int` with an explicit wrap-around function wherever the code adds, negates or multiplies values that
  can overflow (index arithmetic in slicex, durations in timex); elsewhere the numbers are bounded by slice lengths.
* Unsigned words are `BitVec w` / `UInt64`.
* Pointers are natural-number addresses into a heap (a total function or association list), `nil` is `none`.
* `sync.Pool.Get` is nondeterministic: it may return any pooled object or a new one.  Theorems quantify over this choice.
* `append` either writes in place (when the capacity suffices) or allocates with a capacity chosen by an arbitrary growth
  oracle.  Theorems quantify over the oracle.
* Concurrency: a transition system whose steps are the atomic actions of the code (lock operations, atomic loads/stores,
  channel operations, critical sections under a mutex); theorems quantify over all finite schedules.

## Plan per property

| id | model | proof |
|----|-------|-------|
| C01-C06, C08 | sklmapx: heap of nodes, 16 `next` pointers each, head and tail sentinels, `search`, `insert`, `delete`, `New`, `Iterator` pointer by pointer; heights from splitmix64 over the modelled seed | invariant: level i is the sublist of level 0 of nodes with height > i, level 0 strictly sorted; refinement to an association list. C04 and C06 are false of the code (nil dereference after exhaustion; NaN): witness + partial |
| C07 | splitmix64 on `BitVec 64` | explicit inverses of xorshift and odd multiplication |
| C09-C10 | ordmapx over the sklmapx model and a hash map (`K → Option V`) | invariant: same domain |
| C11-C12 | syncmapx: threads, RWMutex with reader count / writer flag, every call = acquire, body steps, release | invariant + ghost log of linearization points; a lexicographic measure shows that without new calls every execution ends, with all calls returned |
| C13-C16 | linkedx: heap of nodes, nondeterministic node pool | full property false of the code; witness, and refinement on the largest class of histories found; for C16 also an exact description of all histories (where the node appended last is) |
| C17 | ring: `data`, `cap`, `head`, `tail` as in the code, out-of-range index = panic | refinement to a bounded queue with an "ever accepted" counter: exact characterisation of when it panics |
| C18-C19 | slice stack/list over the slice memory model | refinement |
| C20-C31 | slicex over the slice memory model; int64 wrap-around in index arithmetic | pointwise equalities with list functions; frame conditions for aliasing |
| C32-C33 | `BitVec w`, `1 << i` with Go's shift rules | bit extensionality, induction over the index list |
| C34, C55, C56, C60, C61, C54 | callbacks as functions that append to an effect trace | equalities of results and traces |
| C35, C36, C37, C41, C42 | transition systems | inductive invariants; witnesses for the false parts |
| C38-C40 | `time.Time.Truncate`, `time.Date`, `Year`, `Month` as the standard library computes them (not in /repo, so recorded in the trusted base) | integer arithmetic; the calendar is proved against a specification by leap-year counting |
| C43 | wrap-around product with `time.Second` | arithmetic witness + exact characterisation |
| C44-C46 | event list sorted by offset in an arbitrary tie order, the two scans, the F loop | counting invariants over prefixes/suffixes |
| C47 | clock as a parameter | induction over histories |
| C48-C53 | gopoolx: mutex sections atomic, worker structs, channels with buffer and closed flag, worker pcs, collector pcs | inductive invariant; witness for preheat |
| C57-C59, C82 | decouplex: every atomic operation one step | inductive invariant; witness for desynchronisation after a drop and for a lost compare-and-swap |
| C80, C81 | the gopoolx model of C48-C53 | invariants counting workers and Stop tokens; reachable dead states as witnesses |
| C62-C63 | registry keyed by optional type code (`reflect.TypeOf` of an interface's zero value is nil) | refinement; witness for interface types |
| C64-C67 | strconv/UTF-8 contracts modelled as functions | round-trip proofs |
| C68-C72, C83 | byte lists; the KDF and random source are parameters; base64 modelled bit by bit | round-trip proofs |
| C73-C76, C84 | block cipher = arbitrary permutation per key; CBC, CTR and GCM modelled over it, GHASH an arbitrary function | round-trip proofs; the counter blocks are proved to be the numbers in order |
| C85-C87 | `init.go` line by line as a history of the registry of C62; floats = NaN, infinities, signed dyadic rationals; rounding to nearest even | the last operation for a pair decides; nearest-float and round-trip proofs |
| C88 | `Range` with a callback that returns a list of calls on the map, over the models of C01 and C09 | positions of an iterator on live and on removed nodes through any updates; log of the loop |
| C89 | the loops of slicex with a callback that returns a list of calls on the slice, over the slice memory model | the elements ahead of the loop stay put; log of the loop |
| C90 | goroutines with stacks of calls over an RWMutex that prefers writers; converters make any calls | exclusion and counting invariants; a measure that every step lowers by one; states that no schedule leaves |
| C91 | goroutines with stacks of calls over one mutex per manager; closers make any calls | the log replayed on a sequential specification; lock order by ranks; multiset order for termination |
| C92 | stacks of `Get` frames over one `sync.Once` per lazy | values against any solution of the definitions; lock order by ranks; multiset order |
| C93 | the decouplex model of C57 with a step for a panic of the view | every state is one of C57's; the slot stays full until a view returns |
| C94 | closers as functions of a world that return an error or panic; deferred unlock | induction over the list; the first panic splits it |
| C95 | `Filter` with a callback that may panic, over the slice memory model | loop invariant up to the panic |
| C96 | the syncmapx model of C11 with keys at which the access panics, and writers that keep new readers out | a call blocked by a panic stays blocked; schedules that let every other call return |
| C97 | the sklmapx model with arbitrary `<` and `==` | the positions a search leaves on all levels fit one split of the list; induction over levels |
| C98 | the ordmapx model over C97; `==` symmetric and transitive | invariant: the index has every key of the Go map |
| C99 | a Go map as a list of entries looked up by a `==` that need not be reflexive | invariant by kind of key |
| C100 | the dequex model with new nodes only | which ends know that the deque is empty, as a mode beside the representation |
| C101, C102 | the two programs in cmd: `WalkDir` over a tree with permissions, log of working directories | the walk as a list computed from the tree; induction over the tree |
| C103 | the gopoolx model of C48-C53; which variables each goroutine is about to use, under the mutex or not | the place of each worker from the invariant of C48 |
| C104 | decouplex with memory: arrays behind the slots, copying and viewing byte by byte, callers that change their slices | simulation by the model of C57; the slot each byte was allocated for |
| C105 | `Iterate` of linkedx/listx with a callback that is a program over the methods, on the heap model of C16 | the place of the current node through every call; for callbacks that only remove: every node of the start still leads to later ones, past removed ones |
| C106 | `syncmapx` with goroutines and a key type with any symmetric and transitive `==`, through a general model of an object behind `sync.RWMutex` (`Verif/Conc/RW.lean`) | linearization at the last access under the lock; the object is simulated by the history of its changes |
| C107 | the transition system of C48 with a clock; stamps and passes read it | the idle list is ordered by the time of the append; the ends of what the binary search takes and leaves |
| C108 | the decouplex model of C57 with any number of readers, each with its own program counter | when calls of Next take turns, simulation by the model of C57; three concrete runs when they overlap |
| C109 | intersectionx, the model of C44 | the count of intervals at a point is what a scan of a beginning of the sorted list comes to; the scan from the back by mirroring |
| C110 | sklmapx, the model of C01, Clear with an iterator inside | calls on the new list leave all addresses below it alone; the chain of the old list |
| C111 | slicex, the model of C20-C29, method calls on the pieces of Split and Batch | where the windows lie; each call writes only inside its window (or its capacity) |
| C112 | decouplex, the model of C57, one producer and one reader | the window of tickets between the reader and the producer is stored in order |
| C113 | transition system of C41, C42; conflicting pairs of program points | invariant of polite runs; runs as witnesses |
| C114, C115 | Go `time` package: `Unix`, `Sub` | arithmetic; witnesses for the ends of the range |
| C116 | AES model of C73 | block-wise description of decryption; finiteness for the inverse of the cipher |
| C117 | converters over slices and memory | frame reasoning; witness |
| C118 | the containers with what `New` fills in made optional | induction over histories; witnesses |
| C119 | a program over an interface as calls, run against both implementations (models of C13, C14, C16-C19) | induction over programs; equivalence with a condition on the program |
| C120 | a graph of n managers closed by one goroutine; `ErrorList.Error` as text | induction over free mutexes and registrations; accessibility for cycles |
| C121 | the models of C78 and C79 one after the other | uniqueness of sorted permutations; the end points of a search in a descending slice |
| C122 | big steps of one goroutine; constructors as interactive programs with panics and `recover` | mutual induction over executions; accessibility of what a lazy needs |
| C123 | decouplex, the model of C57: any number of writers, one reader | the fill counter against the full slots, and the calls that own them |
| C124 | decouplex, the model of C57: the steps of one Write | walk through the slots to the first one where the call ends; a set of states it does not leave |
| C125 | gopoolx, the model of C48: infinite executions with weak fairness | a waiting goroutine stays waiting until it takes the job, so fairness makes it take it |
| C126 | gopoolx, the model of C48: infinite executions with weak fairness, strong for the select | a measure of the work left comes to rest; fairness rules out all resting places but a dry channel; how many goroutines each worker can have, counted by an invariant, bounds those |
| C127 | slicex: all methods as one step function over memory, histories with the growth and randomness chosen freely | each call refines a list operation given apart from the model; composition by induction on the history |
| C128 | searchx with the calls of the comparison, which may have a memory and may panic | halving of the window, by induction on k |
| C129 | sleepx, the model of C41: infinite executions with weak fairness of goroutines inside calls | a goroutine that can always go on leaves its place; with one waker ctx and cancel agree whenever it calls cancel |
| C130 | decouplex, the model of C57: infinite executions with weak fairness of each Write and of Next | the stages after the CAS end, so from some moment on nobody holds a slot and the same slots are full; then a spinning Write drops or gets the number of an empty slot |
| C131 | intersectionx, the model of C44: intervals mapped by x -> c*x + d | a round that succeeds finds both bounds, so stale bounds do not matter; a backward clock exchanges the two scans |
| C132 | the four linkedx models, all pool choices | queue: all allocated nodes hold elements put in and all pointers lead to allocated nodes; stack and list: from the exact runs of C14, C16; deque: all cells hold elements put in or zero values |
| C133 | closex: AsErrs and the result of Close under Go's errors.Is, errors.As, ==, with errors that wrap any number of errors and have Is methods; As methods are left out | errors as trees; the first list in preorder as the only list at a place without lists on its left |
| C134 | `GoPool` (C49–C51) | In every reachable state each job that is in progress is assigned a live goroutine that determines it (the reader of the worker it was given to, or the one handling it), so there are no more of them than `Workers()`; with one worker the step that takes a job on finds nothing in progress, and what was accepted is handled. |
| C135 | slicex: `Shuffle` over the slice memory model (`Slicex`), `rand.Shuffle` as one draw out of 0..i for each i; that the draws are uniform and independent is trusted | the loop composes transpositions; sequences of draws and permutations correspond one to one; counting |
| C136 | truncatex (`Trunc`, C38–C40) | starts of months are multiples of a day since 0001-01-01; two starts in one month are equal |
| C137 | the skip-list model of C01 with the comparisons of keys recorded (`Verif/SklCost`); erasing them gives back the model | a search passes each smaller node at most once over all levels and is stopped at most once per level |
| C138 | Verif/PassHash, Verif/PassCost | `Verify` is a function of the key derivation function; it asks that function one question at most, whose cost is one of the four of alg.go |
| C139 | Verif/Search, Verif/Slicex, Verif/SortedSet | histories of searches followed by insertions and deletions, over the slice model with memory |
| C140 | `Retain`: reachability over the pointers of the existing models of the skip list, the linked containers, the ring and slices | the nodes reachable from the head of the skip list are its two marks and the entries, because pointers above the height of a node stay nil; the linked stack and the queue by their representation invariants |
| C141 | Verif/ConvChain over ConvInit, ConvNum, ConvFloat: `Into` after `Into` on the registry built by `init`, any later registrations that leave built-in pairs alone | every number that all types of the chain have arrives as itself (induction along the chain with the per-pair meaning of C85); the exact condition for integers through an integer type and through a string; float32 through float64. Left out: a float written out as a string in the middle of a chain (how `strconv` writes whole floats is left open), and bytes/runes |
| C142 | Verif/PoolTree: programs (lists of things left to do) of the workers and of goroutines outside over the pool of Verif/GoPool; all calls of `Run` come from these programs, `Stop` and the collector act at any time | invariant: every item is on one list, a job is on its way to one visit; stacks empty by induction over the tree, with the liveness of `Run` and of accepted jobs from C125. Fair: programs, calls, workers and returning handlers that always can go on do so. Visiting a job itself is one step |
| C143 | `Verif/ConvPanic`: the machine of `ConvConc` with stacks: converters panic, call `Goexit`, recover; deferred `RUnlock` runs while unwinding. An unrecovered panic stops its goroutine for good (in Go: the process) | `Does` is a big-step account of programs without locks; `C143_does` connects it with every finished run; progress by a lexicographic measure |
| C144 | `Verif/SklShare`: the memory of `Verif.Skl` behind a `sync.RWMutex` (`Verif/Conc/RW`). Reading calls are one step per loop round and interleave; `Set`, `Del`, `Clear` run alone and are one step. Iterators belong to one call | `mapObj` is a map from keys to values; refinement through `Verif.Skl.Refine`; `Verif/Conc/RWLocal` needs a measure only on what a method can get to |
| C145 | `Verif/KillMany`: `n` goroutines of `HandleKillSig` and the runtime, which sends a signal to one registration after the other; a handler is the list of channels it waits for. Registrations made during a signal and panicking handlers are not modelled | `Ordered` is a rank; termination by a sum over the registrations; the order of the closes gives the rank back |
| C146 | `Verif/SliceUndo`: an editor over the step function of `Verif/SliceAll` that keeps a list of inverse calls; the inverses are part of the program, the slice is the modelled code | exact list effects of C127 on call and inverse; `runOps` for every choice of the run time |
| C147 | `InterTrue/Spec` over the model of C44 | the scans stop before every point that enough intervals have strictly inside, also when edges coincide; two majorities of clocks have a member in common |
| C148 | `Demo/Model`: `test/main.go` over the registry of C85 | the program is run in the model with any buffer; hexadecimal digits specified as base 16 and base 256 numbers that are equal |
| C149 | RingPair: the ring between a goroutine that puts in and one that takes out, every read and write of head, tail and elements a step (sequentially consistent); Conc/Track: calls without a lock that take effect one at a time | invariant relating the program points of both to the stage of their calls in the linearization; the full claim refuted by a race on head and by the panic of C17 |
| C150 | `SliceSide`: variables over one memory; commands `New`, `Copy`, the methods of `SliceAll`, `New(x...)`, `Splice(a, b, x...)` | frame of every method from its model (`step_own`): writes stay in the window up to the capacity, the new window is inside the old one or new; apartness is an invariant; the list reading of C127 for each variable |
| C151 | `SklMean`: the map of `Skl` with coins in place of the generator; comparisons as in `SklCost` | a search moves only to nodes as high as all that follow before the key (`search_length`); which update made a node does not depend on the coins (`made_run`); independence of the coins (`indep`) gives the mean number of such nodes |
| C152 | the containers of `Skl` and `Linked` with the reachability of `Retain` | the pointers of a deque made of new nodes stay inside (`Tidy`, an invariant of all nodes ever made), inner nodes are full (`link_full`); the histories that leak are followed round by round (`LState`, `DState`) |
| C153 | the map of `Ord` behind the RWMutex of `Conc/RW`; one step for each round of the loops of Keys, Values and Range | local variables of a loop describe a prefix of the nodes; simulation by the map of the history |
| C154 | syncpoolx with the contents of the objects and callers that may break the rules; the record of what happened | invariant of the record: where each object is, who touched it since, what was set last | 
| C155 | `PoolFull`: `GoPool` as it is | every live goroutine is counted once: with a job in progress, idle, returning or leaving (`account`); in a pool that takes nothing on for ever all goroutines come to rest (`full_rest`) | 
| C156 | `SklTail`: the model of `SklMean` | the mean of (3/2)^records times a potential that halves with each height reached grows by 1 + 2^-L per node (`weight_more`; the sixteen heights are gone through case by case), then Markov and the union bound |
| C157 | `KillClose`: the goroutine of `HandleKillSig` whose handler is `manager.Close`, signals, calls of `Append` (one step each); closers return | invariant of the first round: a closer registered before it is closed once or still to be closed; progress step by step under weak fairness of the one goroutine |
| C158 | HandOut: the four implementations of dsx.Stack and dsx.Queue (models of C13, C14, C17, C18) behind a mutex; each call one step under the lock | linearizability to a bag, then an account book over the linearization: which take belongs to which put |
| C159 | `SlicePar/Model.lean`: every read and write of an element is a step (`Prog`), goroutines interleave; slice headers and the temporary array of the inner `append` of `Splice` belong to the goroutine; the methods that add nothing, and `Push` where there is room | `Lk` links each program to the whole-method-set step of C127; `Keep` bounds what it uses to its piece; each goroutine carries a memory it alone would have made, equal to the real one on its piece (`own_reach`) |
| C160 | `LazyAll`: stacks of `Get` frames over one `sync.Once` per lazy, one step per atomic access, lock, unlock and write; constructors are the interactive programs of C122 with panics and `recover`; goroutines choose what to get by what they got | one invariant for any set of allowed results that the definitions close (`Closed`, `inv_reach`), used with four such sets; tokens for the `Get` that panics (`Once`); accessibility of what a lazy needs for deadlock freedom (`Low`) and of stacks for the end (`acc_build`, `acc_prod`) |
| C161 | `BitShare`: every read and write of the word a step, calls under one mutex or not; panics recovered, deferred `Unlock` | each goroutine carries the word it alone would have made, equal to the real one on its bits (`track_step`); what a goroutine has read is still the word when it writes (`Fresh`) |
| C162 | `CopyVal`: variables with slice headers over one memory, assignments copy headers, calls as in C18 and C19 | arrays are either of one copy family or disjoint (`Inv`); a call changes old memory only from the index it writes at (`meth_frame`) |
| C163 | the model of C01; `SklWeak`: iterations with any `Set` and `Del` in between | a list of removed nodes whose next pointers lead to list nodes or to such nodes, upwards and past no key that was there all the time (`DeadOk`, `Inv`) |
| C164 | the model of C79; `SortKeys`: one call for each comparison | a stable routine gives the only list in order with equivalent elements in their old order (`ordered_unique`) |
| C165 | `Verif/MapUpd`: `Get` and `Set` of the concurrent map as lock, access and unlock steps of any number of goroutines, with an optional mutex of the program around both | the log of writes; what was read is still there when nobody else uses the key or the mutex is held; counting by bounds on the entry and on what was read |
| C166 | `Verif/Conc/Client`, `Verif/MapProg`: programs of goroutines (next call by local state, new local state by result) over the locks and loops of `Verif/SyncKey` | forgetting the locks: a call takes effect at its last access, every other step changes nothing; conversely calls run one after the other; the end by the number of stages until the next effect |
| C167 | `Verif/MapCache`: a cache with `Has`, `Get`, `Set`, dropped with `Delete`, `Clear`, as a program of C166 | with whole calls: the map has right values only; what was found or computed stays if nothing is dropped |
| C168 | `Verif/MapLoop`: `Keys`, then `Get` of each, beside any program, as a program of C166 | with whole calls: keys of one moment, values of later ones; calls that do not touch a key leave its value |
| C169 | `Verif/SklLoop`: `Next` as one more call of the map of C144, its iterator a local variable; loops beside any program | whole calls (`Conc/Client`), then C163 for each loop from the moment it is about to begin; ends by counting `Set` calls |
| C170 | `Verif/ShareProg`: any programs over the maps of C144 and C153 | `Conc/Client` with the simulations of C144 and C153 |
| C171 | `PoolProg/Model.lean`: the pool of `GoPool`, the object behind a lock of `Conc/RW` and the programs of `Conc/Client` side by side; worker goroutine k is user 2k of the object | every state is one with whole calls (`C171_atomic`, any object); the history of the map is the list of the jobs whose handlers have stored; `Workers` = 0 leaves no live goroutine (C50), so every accepted job was handled (C48) and returned |
| C172 | `Conc/Sect` (a program with a `sync.RWMutex` of its own around sections of several calls, every interleaving of the steps of the calls; generic in the object), `CritSec` (three programs: transfers and audits over a skip-list map, look-up-or-create, `Peek`+`Pop` on a linked stack) over `SklShare`, `OrdShare`, `HandOut` | Invariant: a state is what the ended sections lead to plus the partial run of whoever is inside; unlocking is the serial step. Ends: product of accessibility relations, one for each goroutine, within a serial state. `C172_apart`: witnesses with a lock around each call |
| C173 | `Conc/Many` (a family of objects, each behind a lock of its own; a goroutine is in at most one call; every interleaving of the steps of all calls), `WorkMap` (a work list in a slice stack, results in a concurrent map) over `HandOut`, `SyncKey` | Simulation: the memory of each object and, for each goroutine, where it is once its call has had its effect; each last access is a whole call on the product object. The books of the workers: done + in the stack + in hand = all jobs, and while the stack is not empty somebody works. Ends: weight 3 per job in the stack, lexicographic product over the goroutines below it. |
| C174 | `PassText` (String, Match, MatchS of passhash.vstruct.go; `fmt.Sprint` of bytes) over `PassHash`, `ConvNum` (digits) | The text is cut at the first comma and at the closing brackets; digits are injective by the value of a numeral. |
| C175 | Conc/RWFair, MapFair | Endless executions of the locked objects with a lock that prefers a waiting writer (`ann`), fairness per goroutine. A holder gives the lock back by induction on the rounds left; an announced writer gets it by induction on the readers that are in; so again and again nobody is announced, and every waiting call gets in. Two periodic executions as witnesses: one that meets the hypotheses, one that starves a writer when readers may pass. |
| C176 | MapFlag | From the linearization of each finite part (C175_atomic): between a returned Set and a later call no Delete or Clear, so `lookup` is some stored value; C175 for the calls that return. |
| C177 | `Verif/ConvServe/{Model,Spec}.lean`: the registry of C62 as an object behind `convertersLock`; a conversion takes as many steps as its converter under the read lock, `Register` and `Unregister` take the write lock. Spec: the state is the history of registrations, answers are said by `Latest` | simulation from the registry to the history, `RW.linearizable`; `all_calls_return` of C175; `Exec.later` of C176 for what later calls see |
| C178 | `Verif/CloseServe/{Model,Spec}.lean`: the manager of C60 as an object behind its mutex, a `Close` calls one closer per step. Spec: a list and the relation `Closes` | simulation, `RW.linearizable`, `all_calls_return` of C175, `Exec.later` of C176; `C178_same` connects `Closes` with the function of C60 |
| C179 | `Verif/SklPage/{Model,Spec}.lean`: two programs over the calls of `Verif.Skl`, one that ignores what `Seek` returns and one that looks at it; `IsPage` says what a page is, `Pages` all pages | C02/C03 give the entries after the key as a list, pages are its beginnings; inductions over the pages |
| C180 | `Verif/SklPrio`: the queue calls of a client program over the world of `Verif/Skl`, behind a mutex (`HandOut.behind`), interleaved with any number of goroutines | simulation by an unordered list of entries with a smallest one taken out; the account book of C158; real-time order of the linearization; pigeonhole over the account book for C180_served |
| C181 | `Verif/BitAlloc`: two client programs that allocate numbers with the calls of `Verif/BitSet`, behind a mutex (`HandOut.behind`) | simulation by a set of numbers; the same number twice in the linearization has a `Clear` between; witness with a `uint8` word and the limit 9 |
| C182 | `Verif.UserStore`: requests that hash before the map is locked and verify after it is unlocked, each with at most one call on the `syncmapx.Map` of `Verif.SyncKey` | the linearization of the map; what is stored under a user is decided by the last call that changes it, and that one may be the last one in real time; records by C70 |
| C183 | `Verif.PassChange`: a change is a login of `Verif.UserStore` and, if accepted, a new password: two calls on the map; with a mutex of the program, sections of `Verif.Conc.Sect` | concrete interleaving for the refutation; C182 for what may be the last change when the old password is looked up |
| C77 | bcrypt = arbitrary function of the 72-byte cyclic key schedule input | proof + witness |
| C78-C79 | binary search loop; sorting routine = any function meeting the documented contract | loop invariant; uniqueness of sorted permutations |

## Trusted base

1. **Lean 4.33.0's kernel** and the Mathlib modules imported (checked by the same kernel).
2. **Axioms**: at most `propext`, `Classical.choice` and `Quot.sound`.  No axiom is added, nothing is left unproved, and no
   proof goes through compiled code.  [AXIOMS.md](AXIOMS.md) lists the axioms of every theorem of the manifest; it is written
   by `tools/axioms.py`, which fails when another axiom appears.
3. **The reading of the Go code into the models.**  Every definition of a model cites the lines it stands for.  What the
   reading leaves out is listed per package below.
4. **The Go language, runtime and libraries**, as described per package below.  The source of these is not in /repo; what is
   modelled comes from their documentation and source (Go 1.19, the release go.mod names).

### Modelled and not modelled, per package

| package (of /repo) | modelled | taken from outside, or left out |
|---|---|---|
| dsx/mapx/sklmapx | every function, pointer by pointer; heights and seeds by splitmix64 | the length counter does not overflow; NaN keys in C06 and C97; a map that is used by one goroutine at a time; `String` with `fmt` as an arbitrary rendering function |
| dsx/mapx/ordmapx | every function, over the sklmapx model | the Go map as a partial function; totally ordered keys, except in C98; callbacks of Range are any deterministic functions of their state, the map and the entry (C88) |
| dsx/mapx/syncmapx | every function, step by step under sync.RWMutex | keys with `k == k` (C11), any keys for one goroutine (C99) and for many (C106); keys that cannot be hashed and waiting writers ahead of new readers in a separate model (C96; in C11 they only remove schedules); the order of `range` over a Go map is arbitrary |
| dsx/linkedx/{queuex,stackx,dequex,listx} | every function over a heap and a node pool | memory exhaustion |
| dsx/slicex | every method of Slice, the ring queue, the stack, the list | slices over memory with arbitrary growth of `append`; memory exhaustion, and `make` fails exactly beyond a limit; callbacks of loops call the methods listed in C89 on the slice and do not otherwise write its memory; callbacks that panic in a separate model (C95); `fmt.Sprint` in Join is an arbitrary rendering function |
| dsx/setx/bitsetx | every function, for every word width | |
| functionalx | every function; sync.Once as in the standard library | constructors that both panic and get other lazies: for one goroutine (C122; C35 has the first, C92 the second for many) |
| syncx/lockx | Lock; the compare-and-swap on the first word of the variable | variables narrower than a pointer |
| syncx/syncpoolx | every function | sync.Pool returns any stored object or none |
| timex | truncatex, sleepx, intersectionx, diffx | `time`: the functions used, in UTC, with wrap-around; timers fire at any time at or after their deadline; `sort.Sort` gives any sorted permutation |
| poolx/gopoolx | every function as a transition system | handlers return; sync.Pool as above; time.Ticker may tick at any time |
| iox/decouplex | every function, each atomic operation one step | sequentially consistent atomics (Go's memory model for sync/atomic); the copy into a slot is one step, except in C104; views that panic in a separate model (C93); one goroutine calls Next, except in C108; the data race on `_read` between readers is not an event there, the read is one step |
| iox/managerx/closex, iox/usingx, osx/closex, configx/optionalx | every function | panics, errors and nested calls of closers are in separate models (C94, C60, C91); signals beyond the channel's capacity are lost (os/signal) |
| typex/convx | the registry, the table of built-in converters and the converters | `strconv` for integers and booleans, UTF-8 coding by the runtime; for floats any `strconv` that meets its documentation on decimals (exponents, hexadecimal and underscores are not described); float to integer conversions that do not fit are an arbitrary function; in C90, what nested conversions return |
| cryptox/passhashx | every function | Argon2 is any function; crypto/rand any source; `encoding/base64` modelled bit by bit |
| cryptox/aesx | every function | AES is any family of permutations, SHA-256 and GHASH any functions; secrecy is not stated |
| cryptox/bcryptx | every function | Blowfish's schedule is any function of the 72 bytes it reads; the cost is in range |
| algox | every function | the sorting routine is any one that meets its documentation; the loop of the binary search is modelled; floats only as far as NaN needs |
| cmd | both programs | `filepath.WalkDir` of Go 1.19; what the `go` command does, except that it leaves the directories and their permissions as they are; `os.Getwd` and `os.Lstat(".")` succeed |
| test, main.go | the example program (C148) | main.go is empty |
| all one-line files | nothing | package clauses only |

Running time, memory use and the scheduler's fairness are described only where a theorem counts steps, comparisons or
nodes (C137, C151, C152 and others), says "can" (a continuation exists), or assumes a fair execution by name (C125, C129
and others).

### The repository's own tests, on the models

`Verif/RepoTests` runs the unit tests of /repo on the models: the tables of slicex_test.go row by row, the skip-list map test
with string keys, the list, deque (150 rounds in place of 1000), ring queue, stack, intersection and decoupler tests.  These
are tests of the reading of the code (item 3 above), not proofs; a model that disagreed with an expectation of the authors
would fail the build.  All agree.  Left out: the passhashx tests, which are instances of the claims about Hash and Verify, the
timed-pool tests, which wait for a wall-clock time and are covered by the claims about Stop and idle workers, and the benchmarks.
`Verif/Go/Str.lean` shows that Go strings obey the laws that the theorems about ordered keys ask for.

## Where the code disagrees with the properties

The witness theorem is in the same file as the rest of the property.

| property | what the code does |
|---|---|
| C04 | `Next` after the end panics |
| C06 | a NaN key breaks the order; other keys disappear |
| C13, C14 | removal reports the neighbour's value or panics on the last element |
| C15 | after a pop that empties the deque the other end still points to the node, which the pool hands out again |
| C16 | a stale tail after Insert/Remove at the end; Len after a failed Remove |
| C17 | `data` has `cap` cells but indices go modulo `cap+1`: after `cap` accepted Enqueues a further Enqueue on a ring that is not full panics |
| C21, C30 | Splice writes into the spare capacity of its argument; Delete(MaxInt64) |
| C24 | Rotate(MinInt64) panics |
| C26 | Split's running total overflows |
| C27 | DeleteReplace, Repeat, Rotate and Extend panic |
| C37 | Lock compares the content with the address and spins for ever |
| C39 | the period overflows |
| C42 | a wakeup is lost |
| C43 | the duration is multiplied by time.Second |
| C46 | the answer depends on the order of ties |
| C50, C51, C53, C80 | preheated workers exceed the bound, wait on a nil channel, use up the pool |
| C54 | a second signal closes a closed channel |
| C57 | the ticket counter meets the empty mark after 2^64 - 2 tickets |
| C58, C59, C82 | a dropped write or a lost compare-and-swap uses up a ticket; Next waits for ever |
| C61 | Close never returns nil |
| C63 | all interface types share one key |
| C65 | overflowing digits followed by other characters give the bound, not 0 |
| C72, C83 | newlines are skipped; the last character has several forms |
| C75 | more than 64 GiB panics |
| C76 | short or ragged ciphertexts panic |
| C77 | bytes after 72 and zero bytes are confused |
| C78, C79 | NaN; Sort ignores `reverse` |
| C81 | concurrent Stop calls block |
| C84 | CTR does not notice changes |
| C86 | int64 2^53+1 → float64 → int64 is 2^53; the largest int64 → float64 → int64 does not fit (the result depends on the machine) |
| C87 | "1152921573326323713" → float32 is rounded to float64 first: 2^60 instead of 2^60+2^37 |
| C88 | Clear in the callback makes Range panic; a callback that deletes its key and the next one is called for the deleted key with the zero value; a callback that adds the next key each time keeps Range going |
| C89 | with Shift in the callback, Each on [1, 2, 3] sees 1, 3, 3; Filter panics when the callback shortens the slice, and drops what it pushes |
| C90 | a converter that calls Register or Unregister waits for ever; a converter that calls Into or Exists does, too, if another goroutine has begun to register |
| C91 | a closer that calls its own manager waits for ever; two managers whose closers use each other block each other |
| C92 | a constructor that gets its own Lazy, directly or through others, waits for ever |
| C94 | a closer that panics leaves the ones after it open; a second Close closes the ones before it again |
| C95 | Filter on [1, 2, 3] that drops 1, keeps 2 and panics at 3 leaves [2, 2, 3] |
| C96 | Set with a key that cannot be hashed (a slice in an `any`) panics with the lock held: every later call waits for ever; after such a Get every writer does, and then every reader |
| C98 | Set(1, 10), Set(NaN, 20), Del(1) on a float-keyed ordmapx leaves Keys = [NaN, 1] and Len = 2 though Get finds neither |
| C99 | after Set(NaN, 1), Set(NaN, 2), Delete(NaN) on syncmapx Size is 2 and Keys lists NaN twice, but Has(NaN) is false |
| C100 | PushFront(1), PushFront(2), PopFront, PopFront, PushFront(3), PopFront, PopFront: if the pool gives the second node back, the last call returns (0, true) from an empty deque |
| C101 | in a directory that may be entered but not read the command runs twice; for one that may not be entered it runs in the start directory |
| C103 | the collector writes `w.ch = nil` for a preheated worker whose goroutine has yet to read `w.ch`; two Stop calls use `pool.stop` without a lock |
| C104 | a view that keeps its slice finds other bytes in it after the next Write into the slot |
| C105 | a callback that removes its element and then puts one in: the node may be in use again, the loop ends early or goes elsewhere; an element removed before its turn may be handed out |
| C107 | a worker stamps itself before it takes the lock; when another overtakes it the idle list is out of order and a pass stops workers before their time |
| C108 | two calls of Next that overlap show the same payload twice; the slower one clears a slot that may hold a new payload, or takes the length below zero so that the next call waits for ever |
| C109 | with an odd number of intervals the loop of `intersection` stops one round early: two of three intervals that agree are not found |
| C110 | after Clear an iterator that stands on an entry goes on through the old entries, then gives the zero key and value with ok = true, then panics |
| C111 | Push on a piece of Split or Batch replaces the first element of the next piece; Rotate on a piece overwrites the next one too |
| C112 | one producer, nothing dropped: a Write that finds its slot taken and tries again can land behind an empty slot; Next then waits for ever, or shows later payloads first |
| C113 | `Wakeup` assigns `ctx` and `cancel` without synchronisation: it conflicts with the beginning of a sleep and with another `Wakeup` |
| C114 | `Custom` wraps round for the last 62135596800 seconds of an `int64` |
| C115 | `SleepUntil` returns 292 years after the call at the latest |
| C116 | CBC messages are not authenticated: a changed message is decrypted, the first block of the data changed as the attacker wants |
| C117 | `bytesToBytes` and `runesToRunes` return their argument: the result is not a copy |
| C118 | only the slice stack works without `New`: linked pushes, the ring, the ordered maps panic; a `Set` on a zero `Map` panics and leaves it locked |
| C119 | any program that pops or dequeues a single element, or removes past the end of a list, tells the implementations apart |
| C120 | a manager in a manager is always reported as failed, one registered twice is closed twice, one below itself deadlocks `Close` |
| C121 | after `SortReverse` the elements of the slice are not found by `Search`, but for the largest |
| C122 | the value of a lazy depends on the order of the Gets when a constructor panics: later lazies are built from the zero value |
| C123 | a Write is shown before it is counted, on the count of another: Next then returns false though the payload of the other, which has returned, is there |
| C124 | a Write waits for ever on another Write that has stored and not counted, or on a Next that has emptied its slot and not counted |
| C126 | a preheated worker collected before its goroutine starts leaves that goroutine behind for good, also after Stop |
| C127 | Delete of the largest int empties a slice; Rotate by the smallest int, Repeat and Split with overflowing sizes leave the list reading too (C21, C24, C26, C27) |
| C129 | two overlapping calls of Wakeup can leave a sleeper that no later Wakeup wakes |
| C130 | a Write can be overtaken for ever by other Writes; with a ticket equal to a mark a Write never returns |
| C132 | PushBack(7), PopBack, then PopFront again and again: 7, 63 zeros with ok = true, then panics |
| C133 | errors.Is finds nothing in the result of Close; AsErrs(errors.Join(m1.Close(), m2.Close())) has only the failures of m1; m1.Close() == m2.Close() panics |
| C134 | `NewTimedPool(1, …, preheat 2)`: two handlers run at the same time although `maxWorkers` is 1 |
| C140 | a linked queue or list keeps its removed last element through the stale `tail`; a deque does not erase array slots; a ring keeps everything it ever accepted; `Pop` and `Clear` of a slice keep the removed elements in the array |
| C141 | -1 survives int8 → uint8 → int8, but int8 → uint8 → int16 gives 255 and int8 → int16 gives -1; true survives through a string but string → int8 of it is 0, not 1; a negative number through a string to an unsigned type is 0, not the wrapped number; uint64 values from 2^63 on through a string to a signed type are clamped to the largest int64 and then cut; int64 2^60+2^36+1 → float64 → float32 is rounded twice |
| C145 | A second signal crashes the program after an orderly shutdown (`C145_second`), as in C54 |
| C147 | the true time need not be in the result although more than half of the intervals have it: `Intersection({0,10}, {1,10}, {0,3})` is [-3, 3], while 5 is in two of the three. |
| C149 | Sharing a ring between two goroutines is a data race on head and tail, which Go does not define; and it panics once it has accepted as many elements as it has room for. With sequentially consistent accesses it is the classical queue for one producer and one consumer. |
| C150 | slices made with New do not affect each other | `New(x...)` takes over the memory of `x` (slicex.go:10-13) |
| C152 | A list whose elements after the first come with `Insert` at its end and go with `Remove(0)` never lets go of a node: `tail` stays at the first one. A deque that gets nodes back from its pool can do the same, since `PushFront` does not reset `prev`. | listx.go:47-71, dequex.go:48-55; `C152_refuted`: any number of nodes with never more than two elements |
| C155 | `Run` turns a job down while no job is in progress: after the only handler has returned and before its worker is on the idle list, and while the collector is stopping idle workers. | timedpool.go:45-180; `C155_refuted`, `C155_after_handler`, `C155_while_collecting` |
| C157 | A closer registered while `Close` runs in the handler waits for the mutex, is then registered and never closed, while the channel is closed. A second signal closes every closer again, then `close(intr.C)` panics and ends the program. | osx/closex/closex.go:21-27, manager.go:19-40; `C157_late`, `C157_twice`, `C157_refuted`, `C157_second_signal` |
| C158 | A linked stack hands one element out twice and loses others; a linked queue loses its first element; a panic in Pop under a lock without defer blocks everybody | C158_refuted, C158_without_defer |
| C159 | goroutines work on the pieces of `Split`/`Batch` at the same time | `Push` on a piece writes the first element of the next one (slicex.go:81-83; `Split` keeps the capacity, slicex.go:169-183): a data race and a lost element (`C159_push`) |
| C160 | all `Get` calls of a lazy give the same | if the constructor panics, the `Get` that ran it panics and every other returns the zero value (`sync.Once` marks itself done; lazy.go:17-23): `bad_reach` |
| C161 | goroutines that use different bits do not disturb each other | `b.data \|= 1 << i` is a read and a write of the whole word (bitsetx.go:13): without a mutex a bit set by one goroutine is lost when another writes its own (`lost`) |
| C162 | a copy of a slice stack or list is independent | `append` and `Remove` write into the shared array (stackx.go:16, listx.go:10, 25): a pop and a push on the original change the top of the copy (`popPush`) |
| C165 | `m.Set(k, m.Get(k)+1)` from two goroutines can lose a count: `syncmapx` has no method that updates an entry under its lock. `C165_refuted` |
| C167 | Between `Has(k)` and `Get(k)` another goroutine can delete the entry; `Get` then returns the zero value, and there is no method that does both. `C167_refuted` |
| C168 | Between the `Get`s of a loop over `Keys()` others can `Set`: the entries found need not have been in the map together. `C168_refuted` |
| C179 | A page read with `Seek(last)` begins after the last key seen | When the key has been deleted `Seek` returns `ok = false` and the iterator stands at the beginning: the page repeats the first entries (`C179_again`, `C179_refuted`) |
| C181 | A number taken from a bit set with Test and Set is not handed out twice | With a limit above the width of the word it is: `Set` of a bit that the word does not have does nothing and `Test` of it is false, so a `BitSet[uint8]` and the limit 9 give the number 8 to everybody (`C181_refuted`). Proved for limits up to the width, and for the program that asks `IsFull` |
| C183 | A password can be changed with the old one only once | `Get` and `Set` are two calls: two changes that both look up the old record before either stores its new one both go through (`C183_refuted`). Proved for changes that do not overlap and for any goroutines with a mutex held during each change; a single change needs a password that may be the current one |
