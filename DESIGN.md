# Formal model of yahoojapan/fullock — design

The code in `/repo/lib` was read as text; nothing was built or run.  The model is
Lean 4, under `lean/Verif/`.  This file says, per property of `properties.jsonl`, what is
modelled and how it is proved, what the trusted base is, and where code and property
disagree.

## 1. Layout of the development

| directory | contents |
|---|---|
| `Verif/Model/*.lean` | the model: total, executable functions; every definition cites file and lines of `/repo` |
| `Verif/Spec/*.lean`  | small specifications that do not mention the model's helpers |
| `Verif/Proofs/*.lean`| invariants and helper lemmas |
| `Verif/Props/*.lean` | the property theorems, non-vacuity examples and negation witnesses |

## 2. Modelling decisions

* **Concurrency.** Shared-memory code is modelled as an interleaving of atomic steps.  One step is
  one `__sync_*` operation or one read/write of a shared word.  Sections that run under one of the
  three internal "lockid" spin locks are grouped into few steps; the grouping is justified by the
  separately proved exclusion theorem of that spin lock (C34).  Memory is sequentially consistent
  (`__sync_*` are full barriers); C89 proves that store buffers of x86 change nothing for code that
  touches shared cells under a table lock or with `__sync_*` only.
* **Crash.** A thread may die between any two steps (`die t`); a dead thread makes no further step.
* **Lists in shared memory.** The pointer-level list class is modelled over an explicit memory
  (`next` fields) and proved to refine mathematical sequences (C37, C38).  The upper layers then use
  lists of record numbers.
* **Integers.** 64-bit arithmetic is `BitVec 64` where wrap-around is possible (range overlap, ids),
  `Nat`/`Int` otherwise, with a theorem that the value stays in range (C17).
* **Operating system.** `/proc` look-ups, `fcntl` locks, clock readings, short reads/writes are
  parameters (oracles or nondeterministic events).
* **Undefined behaviour** is a distinct outcome (`Outcome.ub`).

## 3. Plan per property

| id | plan |
|---|---|
| C01 | interleaving model of the file-lock table; negation by explicit schedule (partially overlapping ranges), `_partial` under the discipline "ranges of one file are pairwise equal or disjoint" |
| C02 | same model with deaths and sweeps; negation for the crash window inside unlock; `_partial` for all other crash points |
| C03 | solo run of the acquisition code from any state without a writer |
| C04, C05 | sequential semantics of unlock over any table state; C04 `_partial` under the range discipline + negation |
| C06 | exact result of the single attempt for every lock word |
| C07 | sequential failure paths; `_partial` for EBUSY/ETIMEDOUT; negation for ENOLCK |
| C08 | conservation invariant over all histories of the table model; negation for the known leaking schedule |
| C09 | exact characterisation of what `IsLocked` answers; negation of the per-range reading |
| C10, C11 | look-up key theorems and frame theorems of the table model |
| C12, C13 | sweep functions over arbitrary locker lists and arbitrary OS oracles |
| C14 | negation for a real descriptor; `_partial` for NO_FD locks and mutexes |
| C15 | negation for the window between word update and flag update; `_partial` for the other crash points |
| C16 | invariant of the interleaving model |
| C17 | accounting invariant of the interleaving model |
| C18 | interleaving model of the mutex incl. checkers and deaths; negation via cond wait + death; `_partial` otherwise |
| C19, C20, C24 | exact results of the mutex primitives; C20 negation + what holds |
| C21 | sweep of mutexes over any owner state |
| C22, C23 | name registry model with hash and truncation; history induction |
| C25 | micro-step model of cond wait; negation for timed wait; `_partial` untimed |
| C26 | interleaving model of cond + mutex |
| C27–C30 | waiter list model; C29 negation |
| C31–C33 | timespec arithmetic over all integers; C32 negation, exact delay bound |
| C34, C35 | micro-step model of `fl_lock_lockid`/`fl_unlock_lockid` |
| C36 | ghost trace of lockid acquire/release over every control path |
| C37–C39 | pointer-level memory model |
| C40 | layout arithmetic for all capacities |
| C41, C42 | process-level protocol model with fcntl locks; C41 negation for fork |
| C43–C46 | configuration state machine |
| C47 | loops over oracle system calls |
| C48 | path algorithm with UB outcome |
| C49 | BitVec |
| C50, C51 | cache model, fork model; negations + partials |
| C52, C53 | object-graph model of FLRwlRcsv over a lock oracle |
| C54 | micro-step model of the control flag |
| C55 | solo progress |
| C56 | list functions |
| C57 | pointer-level model of the bulk return, death after any number of writes; negation + the complete run |
| C58 | the loop over path components with a file system oracle; negation for special files |
| C59 | state machine of the debug stream with a ghost list of closed streams |
| C60 | byte-level parsing of event batches, all reads delivered by an oracle |
| C61 | process-level counter machine with fork handlers |
| C62 | the start-up protocol of C41/C42, steps of kind "refuse" |
| C63 | the ghost flag `race` of the FLRwlRcsv model |
| C64 | model of the public C functions; negation + every other null name |
| C65 | the request made by each public function, as a function of its name and arguments |
| C66 | histories of setting calls |
| C67 | machine on memory cells (every list a chain of offsets, deaths between any two writes), simulated step by step by the machine on lists; negation via C57 |
| C68 | generic loop with a parent pointer over a list that shrinks while it is walked; instances for lockers, ranges, files, waiters; the walk on cells is a run of the machine of C67 |
| C69 | the lock word with every read and compare-and-swap a step of its own; move relation, invariant tying the word to the ghost set of holders, potential functions for the retry loops |
| C70 | calls of `FLRwlRcsv` as programs of single instructions, any interleaving; each thread's view (its objects, table entries, locks) runs as if the thread were alone; the theorems of C52, C53 and C63 are carried over |
| C71 | the tables of mutexes, conditions and waiters on memory cells, deaths between any two writes, simulated step by step by the machine on lists |
| C72 | one machine with both kinds of tables on the same cells; typing of all references as an invariant, frame and non-interference lemmas per step, projections to the machines of C67 and C71 |
| C73 | bounds on the counters of the existing machines by the number of steps; executions of any length by induction for the overflows; the mutex machine with wrapped counts, equal to the unbounded one for fewer than 2^31 steps |
| C74 | the machines of C34, C01 and C18 with births of threads under the numbers of dead ones; the old invariants where they survive, a weaker invariant for the mutexes; executions of any length by induction for the locks that are never released |
| C75 | the machine of C72 with every access to a table lock and to the lock word of a range a step of its own; refinement to the machine of C72 by an invariant on what each thread has read; the words of the tables as an invariant; progress by an invariant that what a thread has read stays usable |
| C76 | executions without end of the machine of C69 (`Spec/Forever`: fairness, releases, end of calls); a call returns when the word stays as it wants it, by the number of own steps left; without new calls the set of threads in calls shrinks until it stays, then nobody holds anything; starvation by explicit periodic executions |
| C77 | the machine of C01 and runs from a given state (`Spec/Deadlock`); the kept lock and the place of the waiting thread as an invariant of the run, exclusion of C02 against the last step |
| C78 | the programs of C70 for any number of processes, every segment call carried out step by step on the tables of C01 (`Model/Whole`); each process simulates the machine of C70 with its share of the locks in force (`Proofs/WholeInv`), exclusion from C02 on the tables |
| C79 | the dump as a machine of its own beside the segment of C72 (`Model/Dump`), reading one reference per step without the table lock; safety by an invariant on the references it holds, the output of an undisturbed dump from a big-step meaning of its tasks (`Proofs/Dump`) |
| C80 | executions without end of the machine of C18 (`Spec/MCForever`); calls that make no new calls settle: a rank of places decreases until every thread outside the loops is where it stays, then nobody holds a table lock for ever, unlocks end, nobody owns a mutex, hence nobody waits for one; what is left is a wait nobody has woken; a woken waiter is followed from the call of the signal; starvation by an explicit periodic execution |
| C81 | deadlock as a set of threads each waiting for a mutex another of them owns (`Spec/MCOrder`), order as a condition on calls only; invariant: what a thread is on its way to lock comes after all it owns (`Ordered`), so the latest mutex waited for in a circle would come after itself; a deadlock is kept by every step; returns by descent along the order with the settling of C80 |
| C82 | executions without end of the machine of C01 (`Spec/FLForever`); a rank of places settles as in C80; afterwards only waiting loops are left, a record of a killed holder is swept by the check of any waiter, so the sum of records decreases until the words are constant; a word that stays takeable is taken; a word that stays taken is accounted for by locks in force (exact word of C02), whose holder lives |
| C83 | deadlock as a set of threads each waiting for a range that a lock of one of them excludes (`Spec/FLOrder`), order as a condition on calls that wait without limit only; invariant `Ordered` as in C81; the lock of the deadlocked threads that is last in the order would come before another one; the shared-read case is excluded by C02; a deadlock is kept because the step that breaks it would be followed by two locks that exclude each other; returns from C82 |
| C84 | lives of objects on top of the machine of C70 (`Model/RcsvLife`); a call is safe for the set of existing objects of its thread: it uses only its object and what it finds in the table and in objects (`SafeP`, by structure of the programs, no assumption on the state); this set does not change during a call of the thread; at the end of a destructor the object is not locked (C70), so neither table, `pend` nor `master` has it |
| C85 | executions without end of the machine of C70 (`Spec/RcsvForever`); the rest of a call is a well-founded tree, so a thread that never returns stops at one instruction; it is not the lock of the table, whose holder can always go on (C70); calls of `Unlock` contain no request, so only finitely many requests are made after the last lock call and the list of locks only shrinks: one of those in the way stays for ever |
| C86 | every request left in a call is for one range, which the call asked for (`Ask`, by structure of the programs; in `Lock(fd, …)` the object's range changes on the way); so what a thread in a call waits for comes after all it holds, or is among it; the latter is impossible for a thread that waits behind another one (C70: no request in the way of an own lock); of the threads in a deadlock, finitely many, one waits for the last range |
| C87 | machine with the calling thread in the requests (`Model/RcsvHand`), any thread on any object; with own objects every request has the object's thread (C70), so both machines make the same steps and C70 carries over; runs of two threads for the refutations |
| C88 | `compare` on 64-bit values with signed overflow as an outcome (`Model/RcsvArith`); against `cmpRng` of C01 and sets of bytes; general counterexamples for all offsets |
| C89 | x86-TSO machine and sequentially consistent machine for arbitrary thread programs (`Model/Tso`, `Spec/Tso`); race freedom implies simulation; the table lock, with take-over of dead holders, around arbitrary sections is race free |
| C90 | programs over the words of range locks and mutexes with the store buffers of C89 (`Model/TsoUser`); counting of readers, ownership and nesting as invariants; race freedom, then C89_sc |
| C91 | `Model/RcsvFork`: any number of processes, each with the memory of `Model/RcsvConc`; fork copies the memory and keeps the forking thread only.  `Spec/RcsvFork`: what was told in each process; a child was told nothing. |
| C92 | `Model/RcsvTso`: the threads of `Model/RcsvConc` with a store buffer each; atomic operations and calls of the segment need an empty buffer. `Spec/RcsvTso`: `settled`, the state with all writes done. |
| C93 | `Model/Res`: descriptors with their owners, mappings, blocks, mask; start, end, worker, fork in single steps with every answer of the system. `Spec/Res`: what a step may lose; invariant with at most one active worker. |
| C94 | Function `construct`; equality with the plain constructor followed by the call; the invariant of C52 and C53 for the new object. |
| C95 | as C80 with deaths: ranks settle, then the number of owned mutexes falls with every recovery until no owner changes, then nobody is killed in a call any more; a table lock of a dead holder can be taken; a waiter on a dead owner's mutex begins a check, the check looks at that mutex and would recover it |
| C96 | every execution in the cells is followed by two steps per moment of the machine of C95 (refinement of C71); a measure over the cells the walk has still to visit makes each check end; an invariant over the walked list shows that every mutex of the list is looked at; then C95 |
| C97 | every execution in the cells is followed by the machine of C95 (refinement of C71); an invariant over the part of the list that the walk has passed: no record in it is of the dead thread, kept under steps of others because only a thread itself enters its number and because the list is locked; after the check the invariant says it for the whole list and every later step keeps it |
| C98 | the lives and kept numbers of all threads as a separate small machine, invariant: a kept number of another thread belongs to another process; the machines of C02 and C18 run with the answers computed from it; with right answers each event is one of the machine without forks, so C02 and C18 carry over |
| C99 | descriptor tables as a separate small machine, invariant: for every living thread the descriptor of each of its locks and of its request is open on the file; so a record found dead is that of an ended thread and every step is one of C02's machine; the removal of a record is analysed once for any answer function |
| C100 | processes, watches and the worker's places as a small machine over the mutexes and conditions in the cells of the segment; each execution projects to one of C97's machine; the worker's places are left one after the other, so an unread event is followed by a whole check whose cache is younger than the event |
| C101 | the places of the worker over the file lock machine, with the walk as the list of records still to look at; nobody else changes lists while the worker is inside, so a record of an ended thread is in that list until it is taken out; no step makes a new record of an ended thread |
| C102 | the thread inside the table lock has a finite way out (a pair of numbers that goes down with every step of it and is changed by nobody else), the walk is finite since nobody else changes the lists meanwhile, so the lock is free or can be taken over again and again; then the places of the worker one after the other, and C101 for what holds afterwards |
| C103 | the word changes by compare-and-swap except for the plain write inside of the table lock, which writes "waits" only; so a word that turns to told does so by the compare-and-swap of a signal, which needs an empty buffer; values in memory that nobody writes and nobody has under way stay |
| C104 | `Model/Attach`: the variables of the process, mappings, record lock and the file, each access a step; invariant with three phases (detached, attached, one thread in the middle) |
| C105 | `Model/DbgConc`: each access to the stream variable and each call of the stream library a step; invariant with the place of the one changing thread; calls alone compared with `Model/Dbg` |
| C106 | `Model/DumpText`: the characters of every line; the first line of an item tells its kind and so its number of lines; every line is injective in its values |

No property is considered inexpressible.

## 4. Trusted base

1. **Lean 4.33.0's kernel** (and the elaborator in so far as it decides which statement a theorem has).
   No `sorry`, `admit`, `native_decide`, `bv_decide`, no added axiom, no `unsafe`, no `implemented_by`.
2. **Axioms.** Every theorem listed in `MANIFEST.json` depends on a subset of
   `propext`, `Classical.choice`, `Quot.sound` (checked with `#print axioms` / `collectAxioms` over all
   manifest theorems; see section 8 for how to repeat it).
3. **The reading of the C++ text into the model** (section 5), in particular the choice of atomic steps.
4. **The meaning given to the environment**: sequentially consistent memory for the `__sync_*`
   operations and for aligned word reads/writes (for plain accesses under the table locks this is proved
   in C89 from x86-TSO and from the writes of a thread being done when its death is visible; it is assumed
   of the compiler, of the `locked` flag set outside of the table lock and of plain reads of lock words); POSIX record locks as described in `Model/Init.lean`;
   `/proc/<pid>/task/<tid>` exists exactly while the thread runs (used only where a property talks about
   really dead or really alive threads); glibc's `strtol`/`atoi`; the System V x86-64 layout of structures;
   Linux errno values; two's complement conversions.
5. **The English statements** of `properties.jsonl` and their translation into the theorem statements.

What is *not* trusted: helper lemmas, invariants, the specifications in `Verif/Spec` (they are part of
the theorem statements and therefore must be read, but nothing is assumed about them).

## 5. Which code is modelled

| code (`/repo/lib`) | model | what is left out |
|---|---|---|
| `flckbaselist.tcc` 59-127 lockid | `Model/LockId`, `Model/Tso` (with store buffers, around any accesses to the tables), `Model/Reuse` (reused numbers), `Model/Fine` (inside the whole segment) | `sched_yield`; the counter is a natural number, C73 says when the machine integer differs |
| `flckbaselist.tcc` 130-263 rwlock word | `Model/FileLock` (`canTake`, `takeWord`, `unlockWord`, `spin`), `Model/RwWord` (each access a step), `Model/TsoUser` (with store buffers, around accesses to data), `Model/Fine` (each access a step, inside the whole segment), `Model/Time` (timed loops) | failing `clock_gettime` in `Model/FileLock` (present in `Model/RwWord` and `Model/Time`); counters are unbounded, C73 says when the machine integers differ |
| `flckbaselist.tcc` 265-410 mutex word | `Model/MutexCond` (unbounded `lockcnt`), `Model/TsoUser` (with store buffers), `Model/Count` (32-bit `lockcnt`, `int cnt`) | |
| `flckbaselist.tcc` 412-452 condition word | `Model/MutexCond` (`wSpin`, `sSet`), `Model/TsoCond` (with store buffers, around accesses to data) | |
| `flckbaselist.tcc` 540-702 list class | `Model/ListMem`, `Model/Drain`, `Model/FLMem` (in place, for the file lock tables), `Model/MCMem` (in place, for mutexes and conditions), `Model/Segment` (both together) | retry branch of the compare-and-swap (never taken under the table lock) |
| `flcklistfilelock.*`, `flcklistofflock.*`, `flcklistlocker.*` | `Model/FileLock`, `Model/FLSweep`, `Model/SweepMem`, `Model/Range`, `Model/Os`, `Model/FdLife` (descriptor tables), `Model/Dump` (`dump`) | nested `free_locker_list` (writes NULL over NULL, see `Model/Drain`) |
| `flcklistnmtx.*`, `flcklistncond.*`, `flcklistwaiter.*` | `Model/MutexCond`, `Model/MCMem`, `Model/Name`, `Model/Os`, `Model/Dump` (`dump`) | - |
| `flckshm.cc` 237-492, 1052-1308 configuration | `Model/Config`, `Model/Str` | debug settings inside `InitializeObject` (they are in `Model/Dbg`) |
| `flckshm.cc` 494-966 sweeps, `RawLock`, `IsLocked` | `Model/FileLock`, `Model/FLSweep`, `Model/MutexCond`, `Model/Config` (front part) | |
| `flckshm.cc` 967-1050, `fullock.cc` wrappers | `Model/Api` | `fullock_print_version` |
| `flckshm.h` `to_rel`/`to_abs` | `Model/ListMem` | |
| `flckshminit.cc` | `Model/Layout`, `Model/Init`, `Model/Attach` (several threads of a process), `Model/Thread` (`pstep`), `Model/Res` (descriptors, mappings, mask, every refused call) | refusal of `munmap` and of `pthread_atfork` |
| `flckthread.*` | `Model/Thread`, `Model/IO` (`checkEvent`), `Model/Res` (set-up calls, cleanup, cancellation, fork), `Model/Recover`, `Model/RecoverF` (from the event to the end of the check) | signal masks; the kernel's side of `epoll` and `inotify` except that a close is told to every watch (`Model/Recover`) |
| `flckutil.*` | `Model/Ids`, `Model/SegFork` (numbers kept over fork), `Model/Os`, `Model/Str`, `Model/Time`, `Model/IO`, `Model/Init` (record locks), `Model/DumpText` (`to_hexstring`, `spaces_string`) | `to_string` (not used) |
| `flckpidcache.h` | `Model/Os` | |
| `flckdbg.*` | `Model/Dbg`, `Model/DbgConc` (several threads) | the texts printed |
| `rwlockrcsv.*` | `Model/Rcsv` (a call is one step), `Model/RcsvMake` (constructors), `Model/RcsvHand` (objects used by threads that did not make them), `Model/RcsvFork` (processes made by fork), `Model/RcsvTso` (processors with store buffers), `Model/RcsvArith` (`compare` on 64-bit values), `Model/RcsvConc` (instructions of several threads; the searches and changes of the table are one instruction each, under the mutex `flckbaselist.tcc` 454-481 taken as a lock), `Model/RcsvLife` (constructors 87-104 and destructor 106-114 while threads run), `Model/Whole` (several processes, segment calls step by step) |  |
| `flckshmdump.cc` | `Model/Dump`: the references followed and the members printed, one reference per step; `Model/DumpText`: the text | failing streams; the members of one record are read in one step |
| `fullock.h`, `flckcommon.h`, `flcklocktype.h`, `flckstructure.h` | constants and records in the models above | |

Links between the models that are theorems rather than assumptions: the table lock taken in one step is
justified by `C34_atomic_view`; lists of record numbers by `C37_C38_lists_are_sequences`; "one lock word
per overlapping range" by `C01_lookup_is_overlap`; "a live holder is never taken for dead" by
`C13_live_holder_not_dead`; names as record numbers by `C22_names` and `C22_record_identity`; the
creation of the pools by `C40_then_histories_partial`; the file lock tables as lists instead of cells by
`C67_partial` and `C67_progress_partial`, those of mutexes and conditions by `C71_refines` and
`C71_progress`; an attempt or a release as one step on the lock word by
`C69_atomic`; both of these inside the whole segment by `C75_refines`; the file locks apart from the mutexes and conditions by `C72_files` and `C72_mutexes`; a call of the recursive lock class as one step of its thread by `C70_alone_partial`; a segment that grants and refuses the requests of the class at once by `C78_process_partial`.

## 6. Simplifications that every reader should know

* **Table lock in one step.** In `Model/FileLock` and `Model/MutexCond` acquiring the table lock is
  one step that is possible when the lock is free or its holder is dead.  `Model/Fine` has every access of
  the loops as a step of its own (C75).
* **Grouped actions.** In `Model/FileLock` several writes may form one step, but a death may happen after
  any prefix of them; each group contains at most one access visible to threads outside the critical
  section.  `Model/FLMem` makes each such action the memory writes of the code, with deaths between any two
  of them; C67 shows that nothing changes for the user.  `Model/MCMem` does the same for `Model/MutexCond` (C71).
  `Model/Segment` runs both on the same cells (C72).  Members that are not references (key, range, word,
  flags) take their values together with the action as a whole.
* **Thread identities are not reused** in the interleaving models, except in `Model/Reuse` (C74), which adds
  the birth of a thread under the number of a dead one to the machines of the table lock, the file locks and the
  mutexes and conditions (C50/C51 talk about identities as such).
* **`locked` and lock word.** `fl_lock`'s success and `set_lock` are separate steps; this is the source of
  the windows of C02, C15, C17.
* **Time** is abstract in the interleaving models (a `limit` choice may be taken at any failed
  attempt); the exact arithmetic is in `Model/Time`.
* **The recursive lock class** is modelled call by call, with a list of outcomes for the segment calls.
* **Ends of processes.** `Model/Recover` assumes the order in which Linux takes a process down: no more steps, then its descriptors are closed, then its last thread leaves /proc (the first thread of the process not before its parent has waited for it); any thread may leave later. The writes of a step that was cut off are made when the thread leaves /proc; nobody can see them before, the lock of the list being held. `Model/RecoverF` assumes that a question for a descriptor of an ended process is answered with "none" before the segment file is closed (the kernel takes the table of descriptors from the process first and closes the files then), that the worker may read /proc of the other process, and that a thread does not end in the middle of a call while its process goes on. The claim C102 about infinite executions assumes further that every thread that is able to go on again and again does so (strong fairness; with the weaker kind it is false, C102_weak) and that the kernel closes the descriptors of an ended process sooner or later.

## 7. Where code and property disagree

Each row is a machine-checked refutation `CXX_not_full : not CXX_full` of the property as a user would
read it, with the theorem that holds instead.

| id | what the code does | holds instead |
|---|---|---|
| C01 | ranges that overlap without being equal can be granted together: look-up takes the first overlapping record, a request touching two records uses only one | ranges pairwise equal or disjoint, or clustered (`C01_exclusion_partial`) |
| C02 | a holder that dies in unlock between restoring the lock word and clearing its flag is released a second time by the sweep | all other crash points (`C02_exclusion_partial`) |
| C04, C05 | unlock of `[x,y)` releases a lock of the same thread on an overlapping different range | clustered ranges (`C04_*_partial`, `C05_*_partial`) |
| C07 | ENOLCK for want of a locker record leaves a protected range record that is never freed | EBUSY, ETIMEDOUT (`C07_*_partial`) |
| C08 | default mode: a file record is recycled while range records still hang on it; they are lost | the two other modes and the other pools (`C08_*_partial`) |
| C09 | `islocked` ignores offset and length | `C09_islocked_partial` (file level) |
| C14 | a thread that ended while its process goes on keeps locks taken through a real descriptor | descriptor-less locks, mutexes |
| C15 | death between the successful attempt and `set_lock` leaves the word taken for ever | other crash points |
| C17 | as C02/C15: the word no longer counts the holders after such deaths | deaths outside the windows |
| C18, C21 | dead-owner check reads owner, owner releases by cond wait and dies, new owner is robbed | all other histories |
| C20 | one unlock releases a mutex of any depth | relock never blocks (`C20_relock_partial`) |
| C25 | timed wait can return ETIMEDOUT without the mutex | result 0, untimed wait |
| C29 | signal is given to a dead or timed-out older waiter | all listed waiters alive and blocked |
| C30 | death between taking and listing a waiter record loses it | all other histories |
| C32 | `SUB_TIMESPEC` borrows the second twice: up to one second late | exact delay (`C32_timeout_exact_partial`) |
| C40, C44 | waiter count is guarded by `lockercnt` (line 301): too large counts accepted, good ones refused; condition and waiter counts not reset on reinitialisation | counts within limits |
| C41 | a forked child has no record lock, its segment can be reinitialised under it | processes that attached themselves |
| C42 | an initialiser that dies between the write-lock and read-lock attempts of another lets it attach to an incomplete file (also SIGBUS on the empty file) | if initialisations complete |
| C45 | numbers wrap modulo 2^32; words in FLCKUMASK are taken as 0; 0777 refused | other values |
| C46 | a bad descriptor gives 0 ("granted") in the default mode even when attached | good descriptors |
| C47, C60 | `flck_read` on EAGAIN returns the uninitialised buffer, which is then scanned | delivered batches |
| C48 | `..` above the root is undefined behaviour (wrong list tested), missing cwd too | paths inside the root |
| C50 | the execution key collides with descriptor -1 | other descriptors |
| C51 | the cached tid survives fork | processes that do not fork after the first call |
| C52 | zero-length ranges, failed write lock after taking over readers, failed release of a reader make a thread wait for itself | `C52_partial` |
| C53 | partially overlapping ranges: a nested object is not covered | equal or disjoint ranges |
| C54 | concurrent `Run` overwrites an exit request | calls one at a time |
| C57 | death inside the bulk return leaves records in two lists | the complete run |
| C58 | sockets and block devices pass the directory test | other file types |
| C59 | a failing `fclose` leads to a message on the closed stream | closing succeeds |
| C61 | a second initialisation registers the fork handler again: two workers in a child | one initialisation |
| C62 | a creator overtaken before its write lock gives up | while another process is attached; alone |
| C63 | converting the only lock of a range uses the process-wide table without its lock | other calls |
| C70 | an upgrade with a second object gives the read lock back before the write lock is granted: meanwhile another thread gets a write lock although the outer object counts as locked | objects whose threads are not in a call on their range |
| C64 | a null mutex name of a condition wait is taken as the empty name | every other null name |
| C67 | death inside the bulk return of the ranges of a file (reached through a plain history of lock calls) destroys the lists | deaths between any two other writes |
| C73 | the `int` counters of the waiting loops overflow after 2^31 rounds behind a holder that is alive but stopped (also with a limit of INT_MAX); lock number 2^31 + 1 of the owner of a mutex is refused, and its unlock then leaves a count that spoils the mutex for later owners | shorter waits and executions, other limits (`C73_*_partial`) |
| C74 | when the operating system gives the number of a dead thread to a new one before its locks have been released: two threads can be inside a table at once (a check under way takes the table over from the new thread); the locks of the dead thread are never released as long as the new one lives; the new thread's calls act on them (its lock of a mutex counts as recursive, its unlock of a range or mutex it never locked frees it and returns 0) | exclusion of ranges and mutexes (given the table lock); everything, if the dead thread left no trace |
| C76 | a thread waiting without limit for a range may wait for ever although every lock is released: two readers taking turns keep a writer out, one thread that unlocks and locks again keeps any other out (no queue of waiters) | granted if the calls of the others come to an end, or if the word stays free for it |
| C77 | a request excluded by a lock that is kept can be granted at once when it is filed under the record of another range (as C01) | never granted if the ranges in use are clustered |
| C78 | a thread that already has a read lock and asks for a write lock with another object has its read lock given back first, without telling (`rwlockrcsv.cc` 412); in that gap a thread of another process gets the write lock while the first object still says it is read locked | exclusion between objects none of whose ranges a call of their own thread is working on |
| C79 | of files, mutexes and conditions in use the dump prints the first record only (`flckshmdump.cc` 60-81 has `if` where the free lists have `for`), so a lock in force on another file is not shown; the owner of a mutex is not printed; the dump does not take the table lock, so it can show a lock in force among the free lockers and lose the rest of the free list | what is shown of the first file, mutex and condition; all locks when one file is in use; the free lists of an undisturbed dump; safety of the references always |
| C80 | a thread waiting for a named mutex may wait for ever although the mutex is released again and again: one thread that unlocks and locks again keeps it out (no queue of waiters) | every call returns if the calls come to an end, except a wait without limit that nobody wakes (`C80_unwoken`); granted without that if nobody else takes the mutex meanwhile (`C80_quiet`). Assumed: fairness in the strong sense (a thread able to make a step again and again makes one; the table locks are spin locks), each check of dead owners ends (in the model the order of its records is free), time passes |
| C82 | a thread killed after taking the word of a range and before marking its record leaves the range locked for nobody; a waiter without limit then checks and waits for ever, although no lock is in force | every call returns if threads die anywhere else (`softDeath`) and locks in force are released or their holders killed. Assumed: strong fairness, time passes, a check of a range leaves no record of a killed thread, an attempt on a word that allows it fails only when the word has been changed |
| C84 | the destructor ignores the result of `RawUnlock`, which on a refused `shm.Unlock` puts the object back into the table of the process; the next search of any thread compares with a destroyed object (`C84_dangling`) | no destroyed object is used while no destructor's unlocking is refused |
| C87 | the class finds nested locks by the thread that constructed the object (`lock_tid`), the segment locks for the calling thread: with an object made by another thread two threads are told that they have an exclusive lock (`C87_handed`, `C87_shared`), and a thread waits for itself (`C87_self_wait`) | threads that use objects they made |
| C88 | `compare` adds `off_t` values: an object without bytes, or with a length of 2^63 or more, is not nested in one of the same range (`C88_zero`, `C88_long`) and waits for its own thread in the segment; offset + length above 2^63-1 is undefined although the segment handles such ranges (`C88_overflow`) | at least one byte, end is an `off_t` |
| C91 | the child inherits the table of locked objects and the cached thread number of the forking thread: an object of the child on a range that thread has locked counts as nested and reports success without a request to the segment, so parent and child have a write lock of one range at the same time; unlocking an inherited object fails and leaves it in the table; if another thread holds the lock of the table at the moment of the fork, it stays locked in the child and requests there never return | fork by a thread without locked objects, for progress while no other thread is in a call of the class |
| C93 | the child of a fork loses the two descriptors of its parent's worker; after a second start a fork runs the handler twice, two workers share their variables and one uses released memory; cancellation of the worker while it reads events, or in its cleanup handler after an error of epoll, loses a block or two descriptors | at most these losses, none without forks and these cancellations; memory safety without a fork after a second start |
| C94 | The constructor with a kind ignores the result of the request: the object exists and is not locked, and the caller is not told. | The object is locked when the requests are granted (`C94_locked_partial`). |
| C95 | in the robust modes NO and LOW a thread that locks, without limit, a mutex whose owner was killed waits for ever: it never checks for dead owners (`C95_stuck`) | in the robust mode HIGH (the default) every call of a surviving thread returns, except a wait nobody wakes. Assumed besides those of C80: every check looks at each mutex of the list |
| C96 | as C95 in the cells of the segment (`C96_stuck`) | as C95; that the checks end and look at each mutex of the list is proved |
| C98 | a forked child of a thread that has used the library is taken for dead: parent and child own one mutex (`C98_not_full`), change a table at a time (`C98_table`, `C98_ranges_table`), the child loses range locks without descriptor (`C98_ranges_not_full`) | as C02 and C18 when only threads fork that have not called the library (`C98_exclusion_clean`, `C98_ranges_clean`, `C98_kept_clean`), without the key, or as long as no wrong answer is used |
| C99 | a check takes away the lock of a living thread that has closed its descriptor (`C99_not_full`); the lock of an ended thread stays while its process has the descriptor open (`C99_ended_not_full`) | exclusion and keeping while descriptors in use are left alone (`C99_exclusion_partial`, `C99_kept_partial`), checks exact for what they look at (`C99_checked_partial`, `C99_waiter_partial`), everything free after the process's end (`C99_process`) |
| C100 | the worker is told of an end before the ended thread is seen no more, and is not told again (`C100_not_full`) | any check, unread event or later close of the file after that moment leaves nothing (`C100_check_partial`, `C100_event_partial`, `C100_close_partial`) |
| C104 | nothing guards a start or reinitialisation against other threads: null pointer, a file erased under a holder (two threads have the exclusive lock), a mapping removed under a call | no other call while a call starts or ends the library, no lock kept over a reinitialisation; any calls after a completed start, or while the file cannot be opened |
| C105 | `flckdbg_fp` is not guarded: a message to a closed stream or null pointer, a stream closed twice or never | one thread at a time changes the log, an existing log only while no other thread prints; any messages while the first file is named |
| C106 | names are printed as they are: a name with line ends shows a record that does not exist in the dump | names without line ends: the text determines all that was printed |

Further observations made while reading, not stated as properties: `GetSystemPageSize` always returns the
constant (its `s_init` is never consulted before); `InitializeThread` does not reset the flag of a reused
object; a destructor of `FLRwlRcsv` whose unlock fails leaves a dangling pointer in the process-wide stack.

## 8. Checking

* `cd lean && lake build` builds everything; `Verif.lean` imports all modules.
* Axioms: `#print axioms <name>` for the names in `MANIFEST.json`.
* Seeded wrong programs: `seeded/LOG.jsonl`, one line per attempt: the definition edited, the edit, the claim
  it breaks, the theorems that failed, the theorems that were tightened because the edit went unnoticed.
  For the edits of `Model/DbgConc` and `Model/DumpText` and the later ones of `Model/Attach` only the modules that
  depend on the edited file were built, for all others the whole project.
