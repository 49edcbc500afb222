{"id": "C01", "title": "Range rwlock exclusion", "statement": "While some live thread holds a write lock on a byte range of a file (its lock call returned 0 and it has not called unlock), no other live thread holds a read or write lock on an overlapping range of the same file.", "quantifier": "every number of threads and processes, every mix of rdlock/wrlock/try/timed/unlock calls, every interleaving of their atomic memory operations, every choice of ranges", "why_tests_cant": "the violating schedules depend on which of several overlapping records is found first and on instruction interleaving; tests only exercise one range", "anchors": ["lib/flckshm.cc:FlShm::RawLock", "lib/flcklistfilelock.cc:FlListFileLock::rawlock", "lib/flcklistofflock.h:fl_compare_list_base", "lib/flcklistofflock.cc:FlListOffLock::rawlock"]}
{"id": "C02", "title": "Same-range exclusion for every schedule and crash point", "statement": "If all users of a file use one and the same range (or ranges that are pairwise equal or disjoint), write locks exclude every other lock on that range, for every schedule, and also when any threads die at any instruction.", "quantifier": "every number of threads, every interleaving, every set of crash points, every sweep of dead holders running concurrently", "why_tests_cant": "crash windows are a few instructions wide; a test cannot kill a process at each of them under each schedule", "anchors": ["lib/flckbaselist.tcc:fl_rdlock_rwlock,fl_wrlock_rwlock,fl_unlock_rwlock", "lib/flcklistofflock.cc:FlListOffLock::rawlock,FlListOffLock::check_dead_lock", "lib/flcklistlocker.cc:FlListLocker::check_dead_lock"]}
{"id": "C03", "title": "Readers share", "statement": "As long as nobody holds a write lock on an overlapping range, a read lock request is granted: trying it alone returns 0 at once, whatever number of readers already hold the range, and it never turns another reader's lock away.", "quantifier": "every reachable state, every number of current readers up to the record capacity", "why_tests_cant": "the number of simultaneous readers and the state of the shared tables are unbounded in a test's eyes", "anchors": ["lib/flckbaselist.tcc:fl_tryrdlock_rwlock", "lib/flcklistofflock.cc:FlListOffLock::rawlock"]}
{"id": "C04", "title": "Unlock releases exactly the caller's lock", "statement": "After a lock call returned 0, unlock with the same descriptor, offset and length returns 0, removes exactly one lock of that caller, and leaves the locks of all other threads in force.", "quantifier": "every reachable state of the shared segment, every set of other locks held on the same and on other files", "why_tests_cant": "whether the right record is found depends on every other range locked on the file", "anchors": ["lib/flckshm.cc:FlShm::RawLock", "lib/flcklistfilelock.cc:FlListFileLock::rawlock", "lib/flcklistofflock.cc:FlListOffLock::rawlock"]}
{"id": "C05", "title": "Unlock without a lock is refused", "statement": "Unlock of a range which the caller does not hold (unknown file, unknown range, or held only by others or through another descriptor) returns EINVAL and changes nothing that anyone can observe.", "quantifier": "every reachable state, every caller, every descriptor and range", "why_tests_cant": "must hold against every combination of locks held by others", "anchors": ["lib/flckshm.cc:FlShm::RawLock", "lib/flcklistofflock.cc:FlListOffLock::rawlock"]}
{"id": "C06", "title": "Try calls do not wait and report the truth", "statement": "A try call (rdlock, wrlock, mutex) decides after one attempt: executed without interference it returns 0 exactly when the request is compatible with the locks in force on the record, and EBUSY otherwise (or ENOLCK when the tables are full), and it never retries.", "quantifier": "every state of the lock word, every caller", "why_tests_cant": "requires all states of the lock, including those left by crashes", "anchors": ["lib/flckbaselist.tcc:fl_tryrdlock_rwlock,fl_trywrlock_rwlock,fl_trylock_mutex", "lib/flcklistofflock.cc:FlListOffLock::dolock"]}
{"id": "C07", "title": "A refused lock request leaves no trace", "statement": "A lock request that does not return 0 leaves every table, free pool and lock word as they were: the same locks are held, the same number of records is free, and islocked answers as before.", "quantifier": "every state, every failure (EBUSY, ETIMEDOUT, ENOLCK), every table capacity", "why_tests_cant": "the failure must be provoked at each allocation point with each table state", "anchors": ["lib/flcklistfilelock.cc:FlListFileLock::rawlock", "lib/flcklistofflock.cc:FlListOffLock::rawlock", "lib/flckshm.cc:FlShm::RawLock"]}
{"id": "C08", "title": "No record is lost or used twice", "statement": "The file, range and locker records of the shared segment are conserved: at every moment each record is in exactly one place (free or attached to exactly one owner), so that locking and unlocking for ever never exhausts the segment, and ENOLCK is returned only when a pool is really empty.", "quantifier": "every history of lock and unlock calls by any threads, every capacity, every schedule", "why_tests_cant": "leaks of single records only show after histories longer than any test", "anchors": ["lib/flckbaselist.tcc:fl_list_base", "lib/flcklistfilelock.cc:FlListFileLock::rawlock,free_offset_lock_list", "lib/flckshm.cc:FlShm::RawLock"]}
{"id": "C09", "title": "islocked tells whether the range is locked", "statement": "fullock_rwlock_islocked(fd, offset, length) returns true if and only if some thread holds a lock overlapping that range of that file.", "quantifier": "every reachable state, every file and range", "why_tests_cant": "depends on all other ranges and all failed attempts before", "anchors": ["lib/flckshm.cc:FlShm::IsLocked", "lib/flcklistfilelock.cc:FlListFileLock::is_locked", "lib/flcklistofflock.h:FlListOffLock::is_locked"]}
{"id": "C10", "title": "Different files do not interfere", "statement": "Locks on files with different (device, inode) never conflict, and an operation on one file leaves the locks in force on every other file unchanged, no matter through which descriptors the files are opened; two descriptors of the same file always address the same locks.", "quantifier": "every pair of files, every state, every operation", "why_tests_cant": "must hold for all pairs of files and all histories of record reuse", "anchors": ["lib/flcklistfilelock.h:fl_compare_list_base", "lib/flckshm.cc:FlShm::RawLock"]}
{"id": "C11", "title": "Descriptor-less locks", "statement": "Locks taken with FLCK_RWLOCK_NO_FD(n) live in one name space which is different from that of every real file; the number n does not select a different lock object, only the range does.", "quantifier": "every n, every real descriptor", "why_tests_cant": "ranges over all integers n and all descriptors", "anchors": ["lib/fullock.h:FLCK_RWLOCK_NO_FD,IS_FLCK_RWLOCK_NO_FD", "lib/flckutil.cc:GetFileDevNode"]}
{"id": "C12", "title": "Locks of dead holders are released", "statement": "After a process which held rwlocks has gone (or closed the descriptor), one sweep of the table (CheckProcessDead, or the waiter's own check in high robust mode) releases all its range locks, so that the other threads can acquire them.", "quantifier": "every state, every number of dead holders and of surviving holders, every list position of the dead records", "why_tests_cant": "dead records can be at any position among any number of live ones", "anchors": ["lib/flckshm.cc:FlShm::CheckFileLockDeadLock", "lib/flcklistofflock.cc:FlListOffLock::check_dead_lock", "lib/flcklistlocker.cc:FlListLocker::check_dead_lock"]}
{"id": "C13", "title": "Recovery never takes a lock from a live holder", "statement": "Sweeping dead holders never releases or weakens the lock of a thread which is alive and still has its descriptor open on the locked file.", "quantifier": "every state, every set of dead and live threads, every position of the records", "why_tests_cant": "needs all combinations of live and dead holders", "anchors": ["lib/flcklistofflock.cc:FlListOffLock::check_dead_lock", "lib/flcklistlocker.cc:FlListLocker::check_dead_lock", "lib/flckutil.cc:GetFileDevNode"]}
{"id": "C14", "title": "A thread that ends releases its locks", "statement": "If a thread ends while it holds an rwlock or a mutex, the next sweep releases that lock, even when the rest of its process goes on (README: locks are automatically released when the process or thread is terminated).", "quantifier": "every kind of lock and descriptor, every state of the process's descriptor table", "why_tests_cant": "depends on what /proc reports for each combination of thread, process and descriptor", "anchors": ["lib/flckutil.cc:GetFileDevNode,FindThreadProcess", "lib/flcklistlocker.cc:FlListLocker::check_dead_lock", "README.md"]}
{"id": "C15", "title": "A crash never leaves a range locked for ever", "statement": "Whatever instruction of a lock or unlock call a process dies at, after sweeps of dead holders a later exclusive request on the same range can be granted once all live holders have released it.", "quantifier": "every crash point of every call, every state of the other holders", "why_tests_cant": "a test cannot stop a process between two given instructions of the library", "anchors": ["lib/flcklistofflock.cc:FlListOffLock::rawlock,FlListOffLock::check_dead_lock"]}
{"id": "C16", "title": "No record is recycled under a waiting or holding thread", "statement": "The range record on which a live thread waits or holds a lock is never put back into the free pool nor given to another file or range while that thread uses it.", "quantifier": "every schedule of any number of threads, every mode of record recycling", "why_tests_cant": "use-after-free needs a particular interleaving of at least three threads", "anchors": ["lib/flcklistfilelock.cc:FlListFileLock::rawlock", "lib/flcklistofflock.cc:FlListOffLock::rawlock", "lib/flckshm.cc:FlShm::RawLock"]}
{"id": "C17", "title": "The lock word counts the holders", "statement": "In every reachable state the lock word of a range is -1 when a writer holds it and otherwise equals the number of readers holding it; it is never below -1 and never exceeds the number of locker records, so it cannot overflow.", "quantifier": "every schedule, any number of threads, every capacity", "why_tests_cant": "an accounting invariant over all interleavings", "anchors": ["lib/flckbaselist.tcc:fl_rdlock_rwlock,fl_wrlock_rwlock,fl_unlock_rwlock", "lib/flcklistofflock.cc:FlListOffLock::rawlock"]}
{"id": "C18", "title": "Named mutex mutual exclusion", "statement": "At most one live thread owns a named mutex (its lock call returned 0 and it has not unlocked it), for all processes attached to the segment.", "quantifier": "any number of threads and mutexes, every interleaving of atomic operations, threads dying at any instruction, dead-owner checks running concurrently", "why_tests_cant": "the race needs a death between two instructions of a concurrent checker", "anchors": ["lib/flckbaselist.tcc:fl_lock_mutex,fl_trylock_mutex,fl_timedlock_mutex,fl_unlock_mutex,fl_force_unlock_mutex", "lib/flcklistnmtx.cc:FlListNMtx::rawlock,check_dead_lock", "lib/flckshm.cc:FlShm::CheckMutexDeadLock"]}
{"id": "C19", "title": "Only the owner can unlock a mutex", "statement": "fullock_mutex_unlock by a thread which is not the owner of a locked mutex returns EPERM and leaves the mutex owned as before; on a name never locked it returns EINVAL; on an unlocked mutex it returns 0 without effect.", "quantifier": "every state of the mutex, every caller", "why_tests_cant": "all owners and callers", "anchors": ["lib/flckbaselist.tcc:fl_unlock_mutex", "lib/flckshm.cc:FlShm::RawLock"]}
{"id": "C20", "title": "Recursive mutex nesting", "statement": "The owner of a mutex may lock it again without blocking, and the mutex stays owned until unlock has been called as many times as lock.", "quantifier": "every nesting depth", "why_tests_cant": "all depths; the tests never nest", "anchors": ["lib/flckbaselist.tcc:fl_lock_mutex,fl_unlock_mutex"]}
{"id": "C21", "title": "A dead owner's mutex is recovered", "statement": "When the owner of a mutex is dead, a check of dead owners (as run by every waiter in high robust mode and by the worker thread) makes the mutex free, at whatever instruction the owner died, so that a waiting thread running afterwards acquires it; mutexes of live owners are not touched.", "quantifier": "every crash point of the owner, any number of mutexes and owners", "why_tests_cant": "all crash points and all sets of mutexes", "anchors": ["lib/flcklistnmtx.cc:FlListNMtx::check_dead_lock", "lib/flckshm.cc:FlShm::CheckMutexDeadLock", "lib/flckbaselist.tcc:fl_force_unlock_mutex"]}
{"id": "C22", "title": "Mutex and condition names", "statement": "Two names address the same mutex (condition) if and only if their first 63 bytes are equal, independently of hash collisions; operations on one name never change another name's mutex.", "quantifier": "all pairs of byte strings, every registry state", "why_tests_cant": "all strings; hash collisions cannot be enumerated", "anchors": ["lib/flcklistnmtx.h:FlListNMtx::find,fl_compare_list_base", "lib/flcklistncond.h:FlListNCond::find", "lib/flckutil.h:flck_fnv_hash"]}
{"id": "C23", "title": "Name capacity", "statement": "A mutex lock on a new name fails with ENOLCK exactly when as many different names as the configured capacity have been used since the segment was created; names already used keep working for ever.", "quantifier": "every history of names, every capacity", "why_tests_cant": "histories longer than the capacity with all repetition patterns", "anchors": ["lib/flckshm.cc:FlShm::RawLock", "lib/flckbaselist.tcc:fl_list_base::retrieve_list"]}
{"id": "C24", "title": "A failed mutex request leaves the mutex as it was", "statement": "A mutex lock request that returns EBUSY or ETIMEDOUT changes neither the owner nor the nesting count of any mutex.", "quantifier": "every state, every caller, every schedule", "why_tests_cant": "all states and interleavings", "anchors": ["lib/flckbaselist.tcc:fl_trylock_mutex,fl_timedlock_mutex"]}
{"id": "C25", "title": "Condition wait returns with the mutex held", "statement": "Whenever fullock_cond_wait or fullock_cond_timedwait returns 0 or ETIMEDOUT the caller owns the mutex again.", "quantifier": "every schedule, every timeout", "why_tests_cant": "requires the mutex to be taken by others exactly when the timeout fires", "anchors": ["lib/flcklistwaiter.cc:FlListWaiter::rawlock", "lib/flcklistncond.cc:FlListNCond::rawlock"]}
{"id": "C26", "title": "No lost wakeup", "statement": "If a thread signals (or broadcasts) a condition while holding the associated mutex, after another thread has entered cond_wait with that mutex and released it, then the wakeup is not lost: the waiter chosen by the signal stays woken until it leaves the wait.", "quantifier": "every schedule of any number of waiters and signallers", "why_tests_cant": "lost wakeups live in windows of single instructions", "anchors": ["lib/flcklistncond.cc:FlListNCond::rawlock", "lib/flcklistwaiter.cc:FlListWaiter::rawlock", "lib/flckbaselist.tcc:fl_force_set_cond,fl_wait_cond"]}
{"id": "C27", "title": "Signal wakes the longest waiting thread, broadcast wakes all", "statement": "cond_signal wakes exactly one waiting thread, namely the one that started to wait first among those not woken yet; cond_broadcast wakes every waiting thread; no other thread is woken.", "quantifier": "every list of waiters, every order of arrival, every history of signals", "why_tests_cant": "all queue lengths and mixtures of woken and waiting entries", "anchors": ["lib/flcklistncond.cc:FlListNCond::rawlock", "lib/flckbaselist.tcc:fl_list_base::rfind", "lib/flcklistwaiter.h:fl_compare_list_base"]}
{"id": "C28", "title": "Signals are not stored", "statement": "cond_signal and cond_broadcast on an existing condition without waiters return 0 and change nothing; on a name nobody ever waited on they return EINVAL; a later waiter is not woken by an earlier signal.", "quantifier": "every history", "why_tests_cant": "all histories of signals and waits", "anchors": ["lib/flckshm.cc:FlShm::RawLock", "lib/flcklistncond.cc:FlListNCond::rawlock"]}
{"id": "C29", "title": "A signal reaches a waiting thread if there is one", "statement": "If at the time of a signal at least one live thread is blocked in cond_wait and has not been woken, the signal wakes a live thread that is still waiting.", "quantifier": "every list of waiters containing live, dead and timed-out waiters", "why_tests_cant": "needs a waiter that died or timed out at the right moment", "anchors": ["lib/flcklistncond.cc:FlListNCond::rawlock", "lib/flcklistwaiter.cc:FlListWaiter::rawlock"]}
{"id": "C30", "title": "Waiter records are returned", "statement": "Every waiter record taken by cond_wait is given back when the wait ends (for whatever reason) and when the waiter is dead and swept; so waits never exhaust the pool while fewer threads than records wait.", "quantifier": "every history of waits, signals, time-outs and deaths", "why_tests_cant": "leaks only show after unbounded histories", "anchors": ["lib/flcklistncond.cc:FlListNCond::rawlock,check_dead_lock"]}
{"id": "C31", "title": "Timed calls never give up early", "statement": "A timed lock or wait that reports ETIMEDOUT has waited at least the requested time on the clock used.", "quantifier": "all start and end instants, all timeouts", "why_tests_cant": "all combinations of seconds and nanoseconds", "anchors": ["lib/flckutil.h:SUB_TIMESPEC,IS_OVER_TIMESPEC", "lib/flckbaselist.tcc:fl_timedrdlock_rwlock,fl_timedwrlock_rwlock,fl_timedlock_mutex,fl_timedwait_cond"]}
{"id": "C32", "title": "Timed calls give up in time", "statement": "A timed call whose lock stays unavailable reports ETIMEDOUT at the first clock reading at or after the requested time.", "quantifier": "all start and end instants, all timeouts", "why_tests_cant": "whether it holds depends on the fraction of the second at which the call started", "anchors": ["lib/flckutil.h:SUB_TIMESPEC,IS_OVER_TIMESPEC"]}
{"id": "C33", "title": "Meaning of the timeout argument", "statement": "A timeout of -1 waits for ever and never reports ETIMEDOUT or EBUSY, 0 means try, and every positive timeout is converted into seconds and nanoseconds without loss.", "quantifier": "all 64-bit timeout values, every schedule", "why_tests_cant": "all values", "anchors": ["lib/flcklistofflock.cc:FlListOffLock::dolock", "lib/flcklistnmtx.cc:FlListNMtx::rawlock", "lib/flckbaselist.tcc:fl_rdlock_rwlock"]}
{"id": "C34", "title": "The internal table lock is exclusive and survives crashes", "statement": "At most one live thread is inside the critical sections that change a shared table, even when threads die inside it and others take the lock over from the dead.", "quantifier": "any number of threads, every interleaving, deaths at any instruction", "why_tests_cant": "interleavings of takeover attempts cannot be enumerated", "anchors": ["lib/flckbaselist.tcc:fl_lock_lockid,fl_unlock_lockid"]}
{"id": "C35", "title": "The internal table lock is recovered after a crash", "statement": "When a thread died holding the internal lock, any other thread that keeps running its acquisition loop undisturbed gets the lock after a bounded number of its own steps; while the holder is alive it is never taken away.", "quantifier": "every state of the loop counters, every dead holder", "why_tests_cant": "the spin counter state is arbitrary when the holder dies", "anchors": ["lib/flckbaselist.tcc:fl_lock_lockid"]}
{"id": "C36", "title": "Every call gives the internal locks back and never nests them", "statement": "On every path, including all error returns, an API call that returns has released every internal lock it acquired, never held two of them at once, and never re-acquired one it holds; so calls cannot deadlock on the library's own locks.", "quantifier": "every public call, every branch outcome", "why_tests_cant": "all error paths in all modes", "anchors": ["lib/flckshm.cc:FlShm::RawLock,CheckFileLockDeadLock,CheckMutexDeadLock,CheckCondDeadLock,IsLocked", "lib/flcklistfilelock.cc:FlListFileLock::rawlock", "lib/flcklistofflock.cc:FlListOffLock::rawlock,dolock", "lib/flcklistncond.cc:FlListNCond::rawlock"]}
{"id": "C37", "title": "Shared lists behave as sequences", "statement": "The lists kept in the shared segment behave as finite sequences: inserting puts a record in front, retrieving takes the front record, cutting off removes exactly the given record, searching returns the first (or last) matching record; records not involved keep their contents, and no list ever becomes cyclic or shares a record with another list.", "quantifier": "every memory content, every list length, every history of operations", "why_tests_cant": "all pointer structures", "anchors": ["lib/flckbaselist.tcc:fl_list_base"]}
{"id": "C38", "title": "A crash inside a list operation corrupts nothing", "statement": "If a process dies between any two memory writes of a list operation, every shared list is still a finite sequence containing the same records in the same order, except that the record being moved may be missing.", "quantifier": "every crash point inside insert, retrieve and cut-off, every list", "why_tests_cant": "crash between two stores", "anchors": ["lib/flckbaselist.tcc:fl_list_base::insert_list,retrieve_list,cutoff_list"]}
{"id": "C39", "title": "Processes may map the segment at different addresses", "statement": "A reference stored by one process is resolved by every other process to the same record, whatever addresses the segment is mapped at; the null reference stays null.", "quantifier": "all base addresses, all record positions", "why_tests_cant": "address space layouts are chosen by the kernel", "anchors": ["lib/flckshm.h:to_rel,to_abs"]}
{"id": "C40", "title": "Segment layout", "statement": "For every accepted configuration the areas of the new segment are disjoint, in order, 8-byte aligned, inside the file, the file size is a multiple of the page size, and every pool holds exactly the configured number of records, all distinct.", "quantifier": "all capacities, all version strings", "why_tests_cant": "all configurations", "anchors": ["lib/flckshminit.cc:FlShm::InitializeShmFile,MakeList*", "lib/flckutil.h:ALIGNMENT", "lib/flckbaselist.tcc:fl_list_base::initialize"]}
{"id": "C41", "title": "A segment in use is never reinitialised", "statement": "While a process is attached to the segment no other process truncates or reinitialises it.", "quantifier": "every schedule of any number of processes starting, attaching, forking, crashing and detaching", "why_tests_cant": "the start-up protocol races", "anchors": ["lib/flckshminit.cc:FlShm::InitializeShm", "lib/flckutil.cc:RawFileLock", "lib/flckthread.cc"]}
{"id": "C42", "title": "Attach sees a complete segment", "statement": "A process attaches only to a segment whose initialisation has been completed, and not to one whose version number is newer than its own.", "quantifier": "every schedule, every crash of an initialising process, every version", "why_tests_cant": "initialiser crash at any point", "anchors": ["lib/flckshminit.cc:FlShm::InitializeShm,Attach"]}
{"id": "C43", "title": "Configuration invariants", "statement": "For every history of configuration calls the retry limit used in high robust mode is at least 50, a rejected setting leaves the configuration unchanged, an accepted one changes only its own item.", "quantifier": "every history of setters and environment loads", "why_tests_cant": "histories are unbounded", "anchors": ["lib/flckshm.cc:FlShm::SetRobustMode,SetRobustLoopCnt,SetFreeUnitMode,LoadEnv"]}
{"id": "C44", "title": "Reinitialisation checks its arguments", "statement": "FlShm::ReInitializeObject accepts a set of capacities exactly when each is the default marker or within its own limits, and on acceptance the effective capacities are exactly those requested, or the defaults where the default marker was given.", "quantifier": "all argument tuples, all previous configurations", "why_tests_cant": "all tuples of six capacities", "anchors": ["lib/flckshm.cc:FlShm::ReInitializeObject"]}
{"id": "C45", "title": "Environment settings", "statement": "Each environment variable sets its own item exactly when it holds one of the documented words (in any case of letters) or a number within the limits of the item; otherwise the item keeps its value. No variable influences the item of another.", "quantifier": "all strings for every variable", "why_tests_cant": "all strings, in all combinations", "anchors": ["lib/flckshm.cc:FlShm::LoadEnv", "lib/flckutil.cc:CvtNumberStringToLong"]}
{"id": "C46", "title": "Behaviour without a segment", "statement": "When the process is not attached, lock calls return 0 in the allow modes and ENOLCK in the deny modes, and never touch shared memory; when attached the mode has no influence.", "quantifier": "all modes, all attach outcomes, all calls", "why_tests_cant": "all modes and retry outcomes", "anchors": ["lib/flckshm.cc:FlShm::CheckAttach,RawLock,IsLocked"]}
{"id": "C47", "title": "File input and output helpers", "statement": "Reading and writing helpers transfer exactly the requested bytes in order, whatever sizes the system calls accept at a time, or report failure; zero filling writes zeros to exactly the given interval.", "quantifier": "every sequence of short reads and writes, every size", "why_tests_cant": "short transfers cannot be forced", "anchors": ["lib/flckutil.cc:flck_read,flck_pread,flck_pwrite,flck_fill_zero"]}
{"id": "C48", "title": "Work directory path normalisation", "statement": "GetRealPath yields the normal form of an absolute path: no empty, '.' or '..' components, resolving '..' against its parent; on a path escaping the root it fails cleanly.", "quantifier": "all strings", "why_tests_cant": "all strings", "anchors": ["lib/flckutil.cc:GetRealPath,MakeWorkDirectory", "lib/flckutil.h:trim"]}
{"id": "C49", "title": "Thread identity", "statement": "The identity stored in the segment is different for different (process, thread) pairs, can be decomposed into exactly that pair, and is never the free marker.", "quantifier": "all 32-bit process and thread numbers", "why_tests_cant": "2^64 pairs", "anchors": ["lib/flckutil.h:compose_flckpid,decompose_pid,decompose_tid"]}
{"id": "C50", "title": "The sweep's cache changes no verdict", "statement": "Within one sweep, answers taken from the process cache equal the answers the operating system gave, for every thread and descriptor asked.", "quantifier": "every sequence of queries", "why_tests_cant": "key collisions depend on the descriptors used", "anchors": ["lib/flckpidcache.h", "lib/flckutil.cc:FindThreadProcess,GetFileDevNode", "lib/flckshm.cc:FlShm::CheckProcessDead"]}
{"id": "C51", "title": "Identity after fork", "statement": "After fork a child uses an identity that belongs to a live thread, so that locks of a live child are never treated as locks of a dead thread.", "quantifier": "every history of fork and lock calls", "why_tests_cant": "depends on whether the parent locked before the fork", "anchors": ["lib/flckutil.cc:get_threadid", "lib/flckutil.h:get_flckpid"]}
{"id": "C52", "title": "Nested FLRwlRcsv locks never block on themselves", "statement": "Whatever sequence of lock, relock, upgrade and unlock a thread performs on FLRwlRcsv objects of the same range, the class never requests a segment lock that conflicts with one the same thread already holds, and never waits for a lock it holds itself.", "quantifier": "every sequence of operations on any number of objects, every outcome of the segment calls", "why_tests_cant": "unbounded nesting and orders", "anchors": ["lib/rwlockrcsv.cc:FLRwlRcsv::RawReadLock,RawWriteLock,RawUnlock"]}
{"id": "C53", "title": "Nested FLRwlRcsv locks keep the segment lock exactly as long as needed", "statement": "While any FLRwlRcsv object of the thread is locked the thread holds the segment lock on its range (a write lock if that object is write-locked), and after the last one is unlocked the thread holds none.", "quantifier": "every sequence of operations on any number of objects", "why_tests_cant": "all nesting orders", "anchors": ["lib/rwlockrcsv.cc:FLRwlRcsv"]}
{"id": "C54", "title": "Worker thread control", "statement": "Once the worker thread has been told to exit it is never set back to running, for every interleaving of run, stop and exit requests.", "quantifier": "every interleaving of control calls", "why_tests_cant": "race of single instructions", "anchors": ["lib/flckthread.cc:set_run_thread_cntrl_flag,set_exit_thread_cntrl_flag"]}
{"id": "C55", "title": "Deadlock-free waiting queue in practice: progress of an uncontended request", "statement": "A blocking lock request that runs while nobody holds a conflicting lock (and no one interferes) is granted within a bounded number of its own steps; a mutex request likewise.", "quantifier": "every state without a conflicting holder, every spin-counter value", "why_tests_cant": "all states and counters", "anchors": ["lib/flckbaselist.tcc:fl_rdlock_rwlock,fl_wrlock_rwlock,fl_lock_mutex"]}
{"id": "C56", "title": "Trimming and debug mode helpers", "statement": "trim removes exactly the leading and trailing blanks and nothing else; bumping the debug mode cycles through all four modes.", "quantifier": "all strings, all histories", "why_tests_cant": "all strings", "anchors": ["lib/flckutil.h:trim,ltrim,rtrim", "lib/flckdbg.cc:BumpupFlckDbgMode"]}
{"id": "C57", "title": "A crash while a file's ranges are returned in bulk does not corrupt the tables", "statement": "When the last request on a file is given up, all its range records go back to the free pool at once; a process dying at any memory write of this leaves tables in which every record is in at most one list, so that no later caller is handed a record still in use.", "quantifier": "every list contents, every mapping address, every number of writes done before the death", "why_tests_cant": "the process would have to be killed between two given stores", "anchors": ["lib/flcklistfilelock.cc:FlListFileLock::free_offset_lock_list", "lib/flcklistofflock.cc:FlListOffLock::free_locker_list"]}
{"id": "C58", "title": "Work directory creation", "statement": "When the work directory is created successfully, every directory on its path exists afterwards and is a directory; whether or not it succeeds, no other file is touched, and nothing that existed is changed.", "quantifier": "all paths, all file systems, every pattern of failures of the system calls", "why_tests_cant": "all paths and file systems", "anchors": ["lib/flckutil.cc:MakeWorkDirectory,GetRealPath"]}
{"id": "C59", "title": "Debug log file", "statement": "For every history of setting and unsetting the debug log file, a stream is closed at most once, no stream is used after it was closed, and a failing call leaves the previous log file in place.", "quantifier": "all histories of calls, all outcomes of opening and closing", "why_tests_cant": "unbounded histories and failing closes", "anchors": ["lib/flckdbg.cc:SetFlckDbgFile,UnsetFlckDbgFile,LoadFlckDbgEnv"]}
{"id": "C60", "title": "File close events", "statement": "After the worker reads a batch of file events it reports 'closed' exactly when one of the delivered events says that the watched file was closed, however many events a batch holds and whatever names they carry; a failed read is reported as a failure.", "quantifier": "every batch of events, every read result", "why_tests_cant": "all batches, all read results; a read that would block cannot be forced", "anchors": ["lib/flckthread.cc:FlckThread::CheckEvent", "lib/flckutil.cc:flck_read"]}
{"id": "C61", "title": "One worker per process", "statement": "After any history of initialisations, reinitialisations and forks a process that is attached in a robust mode has exactly one background worker, and a detached one has none.", "quantifier": "every history of initialise, destroy and fork", "why_tests_cant": "unbounded histories across process generations", "anchors": ["lib/flckshminit.cc:FlShm::InitializeShm,Destroy", "lib/flckshm.cc:FlShm::PreforkHandler", "lib/flckthread.cc:FlckThread::ReInitializeThread"]}
{"id": "C62", "title": "Starting a process succeeds", "statement": "A process that starts attaches to the segment, or initialises it, whatever other processes start, attach, detach or die at the same time; it never gives up merely because another process is starting.", "quantifier": "every interleaving of any number of starting processes", "why_tests_cant": "races between open and lock", "anchors": ["lib/flckshminit.cc:FlShm::InitializeShm"]}
{"id": "C63", "title": "The process-wide table of recursive locks is used only under its lock", "statement": "Whatever FLRwlRcsv calls the threads of a process make, every search, insertion and removal in the table shared by all FLRwlRcsv objects happens while its lock is held, and every call gives that lock back.", "quantifier": "every sequence of FLRwlRcsv calls and outcomes of the segment calls", "why_tests_cant": "a data race shows up only with an unlucky interleaving", "anchors": ["lib/rwlockrcsv.cc:FLRwlRcsv::RawReadLock,RawWriteLock,RawUnlock,StackLock,StackUnlock"]}
{"id": "C64", "title": "Null names are refused", "statement": "Every mutex or condition call given a null pointer for one of its names returns EINVAL and has no effect, whether or not the segment is attached.", "quantifier": "every public call with a null name, every process state and no-map mode", "why_tests_cant": "the answer depends on the state of the process and, for the mutex name of a wait, on which names other processes have used", "anchors": ["lib/fullock.cc", "lib/flckshm.cc:FlShm::RawLock", "lib/flcklistnmtx.h:FlListNMtx::find"]}
{"id": "C65", "title": "Public calls make exactly the request they are named for", "statement": "Each public function that reaches the segment requests exactly the kind of lock in its name, on the file, range, mutex or condition given, and with the patience given; a timed call with timeout -1 is the same as the untimed call and with timeout 0 the same as the try call; an attached process with good arguments always reaches the segment.", "quantifier": "all public functions, arguments, configurations and process states", "why_tests_cant": "all argument values, in particular all timeouts, cannot be tried", "anchors": ["lib/fullock.cc", "lib/flckshm.cc:FlShm::Lock,TryLock,TimeoutLock,RawLock", "lib/flcklocktype.h"]}
{"id": "C66", "title": "Answers of the setting calls", "statement": "fullock_set_robust_check_count answers true exactly when the process is in high robust mode and the value is at least 50, and then the value is in force; otherwise nothing changes. Every other setting call answers true and changes only its own item.", "quantifier": "every history of setting calls and every value", "why_tests_cant": "the answer is derived from the previous value of the limit, so it depends on the whole history of calls", "anchors": ["lib/fullock.cc:fullock_set_robust_check_count", "lib/flckshm.cc:FlShm::SetRobustLoopCnt,SetRobustMode"]}
{"id": "C67", "title": "The shared tables survive deaths at any point", "statement": "Starting from a segment as InitializeShmFile leaves it, whatever lock, unlock and query calls threads of any processes make, wherever each process maps the segment, and wherever a thread is killed between two memory writes, the references in the segment always form separate, finite lists of existing records; all processes see the same tables; every call can continue; and conflicting locks are never in force together.", "quantifier": "every capacity within the limits, every mapping address per process and step, every interleaving, every place of death between two memory writes", "why_tests_cant": "the places of death lie between two machine instructions, and each combination of interleaving, mapping address and place of death would need its own test", "anchors": ["lib/flckbaselist.tcc:fl_list_base::insert,retrieve,cutoff", "lib/flcklistfilelock.h:initialize", "lib/flcklistofflock.h:initialize", "lib/flcklistlocker.h:initialize", "lib/flckshminit.cc:FlShm::InitializeShmFile", "lib/flckshm.cc:FlShm::RawLock,UnlockFile"]}
{"id": "C68", "title": "Looking for dead holders ends and frees exactly the dead", "statement": "When a blocked request looks through the shared lists for dead holders, unlinking records while it walks, the walk ends wherever the segment is mapped and however long the lists are; afterwards the lists are intact, exactly the locks of living holders are still in force, no record of a dead holder or dead waiting request is left, and nothing of a living one was touched. The same for the walk over the threads waiting on a condition: the living keep their order, the dead go to the free list. (Provided nobody died in the middle of returning all ranges of a file, C57.)", "quantifier": "every capacity within the limits, every reachable state of the segment, every mapping address, every set of dead threads, lists of any length", "why_tests_cant": "the walk modifies the list it walks over; whether it skips, repeats or loops depends on which records of a list of any length are dead, in combination with the history that built the list", "anchors": ["lib/flckshm.cc:FlShm::CheckFileLockDeadLock", "lib/flcklistfilelock.cc:FlListFileLock::check_dead_lock", "lib/flcklistofflock.cc:FlListOffLock::check_dead_lock", "lib/flcklistncond.cc:FlListNCond::check_dead_lock"]}
{"id": "C69", "title": "Readers and writers on one range, other threads between any two accesses", "statement": "On one range, with other threads running between any two accesses to the lock word: as long as callers release only what they hold, there is never a writer beside another holder; a lock call holds the lock on return exactly if it reports success, an unlock call always reports success and the lock is gone; each call takes effect at one moment or not at all. A call on a free range that nobody else touches succeeds at once, in every variant; an unlock call, and a reader while no writer holds, go round only as often as others change the word; a call with a retry limit ends whatever the others do and does not report the timeout before all attempts have failed; EBUSY and ETIMEDOUT come only from the variants that may report them.", "quantifier": "every number of threads, every interleaving of single memory accesses, every retry limit, every answer of the clock", "why_tests_cant": "the race is between a read and a compare-and-swap a few instructions apart; all interleavings of any number of threads cannot be run", "anchors": ["lib/flckbaselist.tcc:fl_rdlock_rwlock,fl_tryrdlock_rwlock,fl_timedrdlock_rwlock,fl_wrlock_rwlock,fl_trywrlock_rwlock,fl_timedwrlock_rwlock,fl_unlock_rwlock"]}
{"id": "C70", "title": "Recursive locks of several threads of one process", "statement": "Threads of one process use recursive lock objects at the same time, each thread its own objects. A thread has after its calls what it would have if it were alone in the process. A thread told that it has an exclusive lock is the only one told that it has a lock on a common range. A thread none of whose objects is locked holds nothing. The process-wide table is used by one thread at a time, and a thread touches no objects of other threads. A call needs a number of own steps that does not depend on the others, and waits only for a lock of another thread or for a thread that can go on.", "quantifier": "every number of threads and objects, every interleaving of the instructions of their calls, every sequence of calls", "why_tests_cant": "the table, its lock and the segment lock are handed over between several statements; interleavings at each of them cannot be enumerated by running", "anchors": ["lib/rwlockrcsv.cc:FLRwlRcsv::RawUnlock,RawReadLock,RawWriteLock,StackLock,StackUnlock,Lock,ReadLock,WriteLock,Unlock", "lib/rwlockrcsv.h:FLRwlRcsv"]}
{"id": "C71", "title": "The tables of named mutexes and conditions survive deaths anywhere", "statement": "Processes lock and unlock named mutexes, wait on and signal named conditions, and die at any moment, also between two writes to the shared segment. At every moment the references between the records form separate finite lists of existing records: no record is lost, none is in two lists, no list has a loop. Every such history has the calls, deaths and results of a history of tables without references, and every process sees these tables wherever it maps the segment. No search over the lists runs for ever.", "quantifier": "every size of the pools within the limits, every number of processes and threads, every place of the mapping, every history, deaths after any single write", "why_tests_cant": "deaths between two writes of a list operation, in every order with the steps of other processes, cannot be produced by running", "anchors": ["lib/flckbaselist.tcc:fl_list_base,insert_list,retrieve_list,cutoff_list,find,rfind", "lib/flcklistnmtx.cc:FlListNMtx", "lib/flcklistncond.cc:FlListNCond", "lib/flcklistwaiter.cc:FlListWaiter", "lib/flckshm.cc:FlShm::Lock,Unlock,Wait,Signal,Broadcast,RawLock"]}
{"id": "C72", "title": "File locks and named mutexes and conditions in one segment do not disturb each other", "statement": "Processes use file locks, named mutexes and named conditions at the same time in one shared segment and die at any moment, also between two writes. The history of the mutexes and conditions, with all their results, is one they could have had with the file locks unused; the history of the file locks is one they could have had with the mutexes and conditions unused. This holds even after a death that spoils the lists of the file locks: every reference in the segment stays NULL or the beginning of a record of the right kind, and mutexes and conditions go on working.", "quantifier": "every size of the pools within the limits, every number of processes and threads, every place of the mapping, every history of both kinds of calls, deaths after any single write", "why_tests_cant": "two kinds of calls interleaved step by step, with deaths between any two writes, cannot be enumerated by running; that no write ever lands in a record of the other kind is a statement about all of them", "anchors": ["lib/flckshm.cc:FlShm::Lock,Unlock,Wait,Signal,Broadcast,RawLock", "lib/flckshminit.cc:FlShm::InitializeShm", "lib/flckstructure.h:FLHEAD", "lib/flckbaselist.tcc:fl_list_base,insert_list,retrieve_list,cutoff_list", "lib/flcklistfilelock.cc:FlListFileLock", "lib/flcklistnmtx.cc:FlListNMtx", "lib/flcklistncond.cc:FlListNCond"]}
{"id": "C73", "title": "Counters stay within their machine integers", "statement": "However long a call waits for a table, a range or a mutex, however many readers hold a range and however often the owner locks a mutex again, no counter of the library leaves the range of the integer that holds it: the call goes on as documented (it waits, gives up after exactly the configured number of attempts, or succeeds), and the owner of a mutex can always lock it again.", "quantifier": "every length of waiting, every limit that can be configured, every number of readers and nested locks, every interleaving", "why_tests_cant": "the counters leave their range only after 2^31 rounds or locks; a test would have to run for minutes in each of the loops, and signed overflow need not show", "anchors": ["lib/flckbaselist.tcc:fl_lock_lockid,fl_unlock_lockid,fl_rdlock_rwlock,fl_wrlock_rwlock,fl_lock_mutex,fl_trylock_mutex,fl_unlock_mutex", "lib/flckshm.cc:FlShm::SetRobustLoopCnt", "lib/flckstructure.h:FLNAMEDMUTEX"]}
{"id": "C74", "title": "Threads under reused numbers start without locks", "statement": "When the operating system gives the number of a dead thread to a new thread of the process, the new thread starts without locks: the locks and mutexes of the dead thread are released as those of any dead thread, the calls of the new thread do not act on them (its unlock of a range or mutex it has not locked is refused, its lock of a mutex is not taken for a recursive one), and no two live threads hold locks that exclude each other.", "quantifier": "every interleaving of calls, deaths and births of threads, every moment of the birth relative to checks of dead holders under way", "why_tests_cant": "thread numbers come back only after the whole number space has been used, and the critical moments lie between two instructions of another thread", "anchors": ["lib/flckutil.h:get_flckpid", "lib/flckutil.cc:FindThreadProcess,gettid", "lib/flckbaselist.tcc:fl_lock_lockid,fl_lock_mutex,fl_unlock_mutex", "lib/flcklistlocker.cc:FlListLocker::check_dead_lock", "lib/flcklistnmtx.cc:FlListNMtx::check_dead_lock"]}
{"id": "C75", "title": "Guarantees hold between any two accesses to a lock word", "statement": "The guarantees of the library hold not only between calls or between groups of instructions but between any two accesses to the words that the processes share: whatever state is reached access by access is also reached with each attempt, release and entry to a table as one indivisible action, so that exclusion of locks and of mutexes holds under the same conditions as there; at most one live thread works on a table at a time, and while it lives nobody takes the table from it; a thread that finds a table free, or its user dead, gets in within a bounded number of own accesses and undisturbed; a thread that read a lock word which then changed fails its attempt without any effect or reads again; and no thread in a call ever gets stuck.", "quantifier": "every interleaving of any number of threads with one access to a table lock or lock word of a range per step, deaths between any two of them", "why_tests_cant": "the window between reading a word and the compare-and-swap is a few instructions; a test cannot place another thread or a kill there", "anchors": ["lib/flckbaselist.tcc:fl_lock_lockid,fl_unlock_lockid,fl_trylock_rwlock,fl_lock_rwlock,fl_timedlock_rwlock,fl_unlock_rwlock", "lib/flcklistofflock.cc:FlListOffLock::unlock,check_dead_lock", "lib/flckshm.cc:FlShm::RawLock"]}
{"id": "C76", "title": "A blocking request is granted sooner or later", "statement": "A thread that asks for a file lock without a limit of time or attempts obtains it sooner or later, provided that every thread in a call keeps running and that every lock that is taken is released sooner or later.", "quantifier": "every execution without end of any number of threads under a fair scheduler, every mode of the request", "why_tests_cant": "a statement about executions without end; a test sees only a beginning of one, and only the interleavings that happen to come up", "anchors": ["lib/flckbaselist.tcc:fl_rdlock_rwlock,fl_wrlock_rwlock,fl_timedrdlock_rwlock,fl_timedwrlock_rwlock,fl_unlock_rwlock"]}
{"id": "C77", "title": "No request is granted past a lock that is kept", "statement": "A request excluded by a lock in force is not granted as long as the holder lives and does not unlock, however long it waits and whatever all others do; in particular a thread that asks for a range it holds itself in an excluding mode (locks through the descriptor are not recursive), and two threads that each ask for what the other holds, wait for ever and keep what they hold.", "quantifier": "every reachable state, every run of any length from there, any number of threads, every death and sweep of others", "why_tests_cant": "says that something never happens, in runs of any length and any interleaving; a test ends by its time limit and cannot tell waiting for ever from waiting long", "anchors": ["lib/flckshm.cc:FlShm::Lock,RawLock", "lib/flcklistfilelock.cc:FlListFileLock::lock", "lib/flcklistofflock.cc:FlListOffLock::lock,check_dead_lock", "lib/flckbaselist.tcc:fl_rdlock_rwlock,fl_wrlock_rwlock"]}
{"id": "C78", "title": "Recursive lock objects exclude each other across processes", "statement": "When threads of several processes use recursive lock objects, and other threads lock ranges through the descriptor, a thread whose object tells it that it holds a write lock excludes every other thread, of whatever process and by whatever interface, from every overlapping range of the file; one whose object holds a read lock excludes every writer. Each process sees of its objects what it would see if it were alone with a segment that grants and refuses at once. A thread all of whose objects are unlocked has no lock left in the shared tables. A thread waiting in the segment never keeps the table of its process locked.", "quantifier": "any number of processes, threads, objects and descriptors, every interleaving of the instructions of the class, of the steps of the segment calls they make and of the calls and deaths of threads that use the segment directly", "why_tests_cant": "needs every interleaving of instructions of several processes with the steps inside the shared tables; a test runs some of them and cannot stop a process between a release and the next request", "anchors": ["lib/rwlockrcsv.cc:FLRwlRcsv::RawUnlock,RawReadLock,RawWriteLock,Lock,ReadLock,WriteLock,Unlock", "lib/flckshm.cc:FlShm::Lock,Unlock,RawLock,RawUnlock"]}
{"id": "C79", "title": "The dump is safe to take at any time and shows what is locked", "statement": "Dumping the segment while other threads and processes use it, and after any of them has been killed anywhere, never follows a reference that is not NULL or the beginning of a record of the right kind, and changes nothing. The dump of a segment nobody is working on comes to an end and shows every lock in force with its thread and descriptor; with the free records, it shows exactly the free records.", "quantifier": "all segment sizes, all histories of calls and deaths before and during the dump, every interleaving of the reads of the dump with the steps of others", "why_tests_cant": "the dump takes no lock, so its safety is about every interleaving of its reads with the writes of others and every place where a process may have died; a test sees a few outputs of a quiet segment with one file", "anchors": ["lib/flckshmdump.cc:FlShm::Dump", "lib/flcklistfilelock.cc:FlListFileLock::dump", "lib/flcklistofflock.cc:FlListOffLock::dump", "lib/flcklistlocker.cc:FlListLocker::dump", "lib/flcklistnmtx.cc:FlListNMtx::dump", "lib/flcklistncond.cc:FlListNCond::dump", "lib/flcklistwaiter.cc:FlListWaiter::dump"]}
{"id": "C80", "title": "Calls of named mutexes and conditions return sooner or later", "statement": "If the scheduler is fair and every mutex is unlocked sooner or later, a thread waiting for a named mutex gets it in the end; every other call returns as well, a timed wait within its limit and a wait without limit once it is signalled (as the longest waiting) or broadcast to. Only a wait without limit that nobody signals may last for ever.", "quantifier": "all infinite executions: any number of threads, mutexes and conditions, every interleaving of the steps, calls nested in any way", "why_tests_cant": "whether a call that has not returned yet ever will is not visible in any finite run; a test only shows that it returned within the time it was given", "anchors": ["lib/flckbaselist.tcc:fl_lock_mutex", "lib/flckbaselist.tcc:fl_unlock_mutex", "lib/flckbaselist.tcc:fl_wait_cond", "lib/flckshm.cc:FlShm::Lock", "lib/flckshm.cc:FlShm::Unlock", "lib/flckshm.cc:FlShm::Wait", "lib/flckshm.cc:FlShm::Signal", "lib/flckshm.cc:FlShm::Broadcast"]}
{"id": "C81", "title": "Mutexes taken in a fixed order never deadlock", "statement": "If every thread asks for named mutexes in one fixed order (a mutex it does not own yet comes after all it owns, and the mutex of a condition wait comes after the others its caller owns), no set of threads ever waits for each other in a circle, even when threads are killed; and every call returns if calls come to an end and owners call again, unless somebody waits for a condition for ever. Without order threads may be deadlocked; then they stay so whatever others do.", "quantifier": "all orders, any number of threads and mutexes, recursive locking, all interleavings of the steps, deaths included; all infinite executions for the returns", "why_tests_cant": "absence of deadlock is about all interleavings of any number of threads; a test that does not hang shows that one schedule did not", "anchors": ["lib/flckbaselist.tcc:fl_lock_mutex", "lib/flckbaselist.tcc:fl_wait_cond", "lib/flcklistnmtx.cc:FlListNMtx::lock", "lib/flcklistwaiter.cc:FlListWaiter::wait", "lib/flckshm.cc:FlShm::Lock", "lib/flckshm.cc:FlShm::Wait"]}
{"id": "C82", "title": "Calls on file ranges return, also when holders are killed", "statement": "Once no more calls are issued, every call on a file range returns (or its thread is killed), if every lock in force is released sooner or later or its holder killed; a thread that waits without limit obtains its lock. A lock of a killed thread keeps nobody waiting: whoever never returns waits for a lock that excludes its request and that a living thread keeps for ever.", "quantifier": "all infinite executions with a fair scheduler, any number of threads, files and ranges, deaths anywhere", "why_tests_cant": "\"sooner or later\" is about executions without end; a test that waits and sees no return cannot tell slow from never, and places of death are many", "anchors": ["lib/flckshm.cc:FlShm::Lock", "lib/flckshm.cc:FlShm::TimeoutLock", "lib/flckshm.cc:FlShm::CheckFileLockDeadLock", "lib/flcklistlocker.cc:FlListLocker::lock", "lib/flckbaselist.tcc:fl_lock_rwlock"]}
{"id": "C83", "title": "File ranges taken in a fixed order never deadlock", "statement": "If the ranges in use of each file fall into groups (ranges of a group overlap each other, ranges of different groups do not) and every thread that waits without limit asks for ranges in one fixed order of the groups (a range it asks for comes after all it holds, or is shared for reading), no set of threads ever waits for each other in a circle, even when threads are killed; and every call returns if calls come to an end and holders call again or are killed. Without order threads may be deadlocked; then they stay so whatever others do.", "quantifier": "all orders, any number of threads, files and ranges, all interleavings of the steps, deaths included; all infinite executions for the returns", "why_tests_cant": "absence of deadlock is about all interleavings of any number of threads; a test that does not hang shows that one schedule did not", "anchors": ["lib/flckshm.cc:FlShm::Lock", "lib/flckshm.cc:FlShm::TimeoutLock", "lib/flcklistlocker.cc:FlListLocker::lock", "lib/flckbaselist.tcc:fl_lock_rwlock"]}
{"id": "C84", "title": "Destroyed recursive lock objects are never used again", "statement": "Recursive lock objects may be constructed and destroyed at any time while other threads lock and unlock theirs: no call of any thread reads or writes an object that is destroyed or not yet constructed, and no existing object or table refers to one. A thread whose objects are all destroyed holds no lock; an object that shares the lock of a destroyed one keeps it.", "quantifier": "all interleavings of the instructions of any number of threads, constructions and destructions anywhere between the calls of a thread, all sequences of calls", "why_tests_cant": "use of a destroyed object is undefined behaviour that mostly goes unnoticed; it depends on the interleaving of the destructor of one thread with the searches of another", "anchors": ["lib/rwlockrcsv.cc:FLRwlRcsv::~FLRwlRcsv", "lib/rwlockrcsv.cc:FLRwlRcsv::RawUnlock", "lib/rwlockrcsv.cc:FLRwlRcsv::RawReadLock", "lib/rwlockrcsv.cc:FLRwlRcsv::RawWriteLock", "lib/rwlockrcsv.h:FLRwlRcsv::move_pending_stack"]}
{"id": "C85", "title": "Calls of recursive lock objects return", "statement": "Every call of a recursive lock object returns, if locks are no more asked for from some moment on and every lock is released sooner or later. Whoever never returns waits for a lock that another thread keeps for ever: the table of the process keeps nobody waiting, and no thread ever waits for a lock of its own. Without an end of requests, a call returns if again and again nothing is in its way.", "quantifier": "all infinite executions with a fair scheduler, any number of threads, objects and ranges, all interleavings of the instructions", "why_tests_cant": "\"sooner or later\" is about executions without end; a test that waits and sees no return cannot tell slow from never", "anchors": ["lib/rwlockrcsv.cc:FLRwlRcsv::RawReadLock", "lib/rwlockrcsv.cc:FLRwlRcsv::RawWriteLock", "lib/rwlockrcsv.cc:FLRwlRcsv::RawUnlock", "lib/rwlockrcsv.cc:FLRwlRcsv::StackLock", "lib/flckbaselist.tcc:flck_trylock_noshared_mutex"]}
{"id": "C86", "title": "Recursive lock objects taken in a fixed order never deadlock", "statement": "If every thread asks with its recursive lock objects only for ranges that come, in some fixed order of the ranges, after all it holds, or for a range it holds already, then no set of threads ever waits for each other's locks, whatever kinds of locks are asked for, however often objects are nested and whichever of them are switched between reading and writing. Every call then returns, if locks are no more asked for from some moment on and threads whose calls return release their locks. Without an order a deadlock is possible, and once there it stays whatever happens.", "quantifier": "all executions, any number of threads, objects and ranges, any order, all interleavings of the instructions", "why_tests_cant": "a deadlock needs one particular interleaving; no set of runs shows that there is none, nor that one lasts for ever", "anchors": ["lib/rwlockrcsv.cc:FLRwlRcsv::RawReadLock", "lib/rwlockrcsv.cc:FLRwlRcsv::RawWriteLock", "lib/rwlockrcsv.cc:FLRwlRcsv::RawUnlock", "lib/rwlockrcsv.cc:FLRwlRcsv::Set", "lib/flckshm.cc:FlShm::ReadLock", "lib/flckshm.cc:FlShm::WriteLock"]}
{"id": "C87", "title": "Recursive lock objects used by other threads than their makers", "statement": "Threads of a process exclude each other with recursive lock objects, whichever thread constructed the object that a thread uses: a thread told that it has an exclusive lock is the only one told that it has a lock on a common range, and no thread waits for a lock of its own.", "quantifier": "all histories, any number of threads and objects, any thread calling on any object, all interleavings of the instructions", "why_tests_cant": "a test with one object per thread made by that thread sees nothing wrong, and whether all interleavings of such use are right cannot be enumerated", "anchors": ["lib/rwlockrcsv.cc:FLRwlRcsv::FLRwlRcsv", "lib/rwlockrcsv.cc:FLRwlRcsv::compare", "lib/rwlockrcsv.cc:FLRwlRcsv::RawWriteLock", "lib/rwlockrcsv.cc:FLRwlRcsv::RawReadLock", "lib/flckutil.h:get_flckpid"]}
{"id": "C88", "title": "Recursive lock objects and the segment agree on which ranges meet", "statement": "A recursive lock object takes another one of its thread on the same file for nested exactly if the segment takes the two ranges for the same, so that a nested request is never sent to the segment where it would wait for the thread itself; the comparison has no undefined behaviour.", "quantifier": "all 64-bit offsets and lengths", "why_tests_cant": "2^256 pairs of ranges; the differences are at the ends of the value ranges", "anchors": ["lib/rwlockrcsv.cc:FLRwlRcsv::compare", "lib/flcklistofflock.h:fl_compare_list_base"]}
{"id": "C89", "title": "Store buffers of the processors do not change what the locked tables show", "statement": "On processors where a write becomes visible to others some time after it is made, in order (x86), every access to the shared tables made inside of the table lock has the effect it has on sequentially consistent memory: at most one thread is inside, its writes are all visible when another one enters, also when that one takes the lock over from a dead thread, and nothing but its own accesses changes what it sees while it is inside.", "quantifier": "all programs of accesses inside the lock, all numbers of threads, all schedules, delays of writes and deaths", "why_tests_cant": "reorderings by store buffers depend on the processor's timing and appear in few of very many runs; the take-over from dead holders needs a death at the right instant", "anchors": ["lib/flckbaselist.tcc:fl_lock_lockid", "lib/flckbaselist.tcc:fl_unlock_lockid", "lib/flcklistofflock.cc:FlListOffLock::rawlock", "lib/flcklistlocker.h:FlListLocker::set_lock"]}
{"id": "C90", "title": "Data guarded by locks are consistent, also with store buffers", "statement": "Threads that touch shared data only while they have the lock that guards them (read lock or mutex to read, write lock or mutex to write) behave on x86 processors as on sequentially consistent memory: what one wrote under the lock is what the next one to get the lock sees, and while a thread has a lock nothing but its own accesses changes the data it sees.", "quantifier": "all programs that keep this rule on sequentially consistent memory, all numbers of threads, locks and data, all schedules, delays of writes and deaths", "why_tests_cant": "the reordering of accesses around lock and unlock depends on the processor's timing and on the other threads; a missing barrier shows in few of very many runs", "anchors": ["lib/flckbaselist.tcc:fl_rdlock_rwlock", "lib/flckbaselist.tcc:fl_wrlock_rwlock", "lib/flckbaselist.tcc:fl_unlock_rwlock", "lib/flckbaselist.tcc:fl_lock_mutex", "lib/flckbaselist.tcc:fl_unlock_mutex"]}
{"id": "C91", "title": "Recursive lock objects and fork: a child has none of the locks of its parent", "statement": "After fork, parent and child are two users of the locks: a lock object that reports a lock in one process excludes conflicting reports in the other, on the same file and range; a child can neither use nor release a lock of its parent; and calls on lock objects in the child return as they do in any process.", "quantifier": "all numbers of processes, threads, objects and ranges; all interleavings of calls, steps, thread creations and forks, forks of children included; full claim: fork at any time; proved part: fork by a thread that has no lock at that time, and, for progress, while the table of the class is not locked", "why_tests_cant": "What goes wrong depends on the locks the forking thread has and on where another thread of the parent is at the moment of the fork; the child that hangs or the lock that is reported twice is seen only under one of these interleavings, and no test enumerates trees of processes.", "anchors": ["lib/rwlockrcsv.cc: FLRwlRcsv::Stack, FLRwlRcsv::StackLock, FLRwlRcsv::compare, FLRwlRcsv::RawReadLock, FLRwlRcsv::RawWriteLock, FLRwlRcsv::RawUnlock", "lib/flckutil.cc: get_threadid, FlTidCache", "lib/flckutil.h: get_flckpid", "lib/flckshm.cc: FlShm::PreforkHandler"]}
{"id": "C92", "title": "Recursive lock objects on processors with store buffers", "statement": "Threads that use recursive lock objects, each thread its own ones, get the same results on processors that delay plain writes (x86-TSO) as with sequentially consistent memory: every run with delayed writes corresponds to one without in which all threads are at the same places of the same calls, have been told the same and hold the same locks; and the other way round. In particular a thread that was told that it has an exclusive lock is the only one that was told it has a lock on a range in common, and no thread waits because of a write under way.", "quantifier": "all numbers of threads, objects and ranges (equal or disjoint for one descriptor), all calls as in C70, all interleavings of accesses and of the moments at which writes reach memory; as in C70, exclusion for threads that are not in a call on the range", "why_tests_cant": "Whether a write is still in a store buffer when another thread searches the table depends on the processor and on timing; tests run on one machine see few of the orders, and a missing barrier shows up as a rare double grant.", "anchors": ["lib/rwlockrcsv.cc: FLRwlRcsv::StackLock, FLRwlRcsv::StackUnlock, FLRwlRcsv::RawReadLock, FLRwlRcsv::RawWriteLock, FLRwlRcsv::RawUnlock, FLRwlRcsv::compare", "lib/rwlockrcsv.h: FLRwlRcsv", "lib/flckbaselist.tcc: flck_trylock_noshared_mutex, flck_unlock_noshared_mutex"]}
{"id": "C93", "title": "What the library takes from its process it gives back", "statement": "The library closes what it opens and nothing else: after its end, or after a start that failed, no descriptor, mapping, thread or memory block of it is left; a start leaves the file mode mask as the program has set it; no descriptor of the program is ever closed by the library; nothing is released twice or used after its release; and while the worker watches the file, its descriptors are open.", "quantifier": "all orders of starts, ends and forks, every answer of every system call of the start and of the worker, all interleavings with the worker threads and with threads of the program that open and close descriptors; full claim: forks at any time between calls; proved parts: safety for processes that do not fork after a second start, leaks bounded by the number of forks and of two kinds of cancellations, none without them", "why_tests_cant": "What is left depends on which of some twenty system calls fails, on where the worker is when it is cancelled, and on forks; a lost descriptor is not seen by a test that ends, and a descriptor closed twice shows only if another thread opened one in between.", "anchors": ["lib/flckshminit.cc: FlShm::Attach, FlShm::Detach, FlShm::InitializeShm, FlShm::InitializeShmFile, FlShm::Destroy", "lib/flckthread.cc: FlckThread::CleanupHandler, FlckThread::WorkerProc, FlckThread::CheckEvent, FlckThread::InitializeThread, FlckThread::ReInitializeThread, FlckThread::Run, FlckThread::Exit", "lib/flckshm.cc: FlShm::PreforkHandler", "lib/flckutil.h: FLCK_Free, FLCK_Delete, FLCK_CLOSE"]}
{"id": "C94", "title": "What the constructors of recursive locks do", "statement": "Making a recursive lock object with a kind of lock (reading or writing) and a valid descriptor does exactly what making it without a kind and then making the request does, so that when requests are granted the object is locked on return and the thread holds the lock in the segment. Making it without a kind, or with the descriptor -1, touches nothing but the new object. With the descriptor -1 the kind is remembered: Lock() makes the request of that kind; without a kind Lock() fails and changes nothing.", "quantifier": "All states of the recursive lock class after any history of calls, all ranges, kinds and outcomes of segment calls.", "why_tests_cant": "Tests construct an object in a few situations; they do not show that construction and request agree in all states, nor that a refused request leaves an unlocked object without a sign.", "anchors": ["lib/rwlockrcsv.cc FLRwlRcsv::FLRwlRcsv", "lib/rwlockrcsv.cc FLRwlRcsv::Lock", "lib/rwlockrcsv.h FLRwlRcsv"]}
{"id": "C95", "title": "Calls on named mutexes and conditions return although threads are killed", "statement": "Threads may be killed anywhere, also while they own mutexes, wait for conditions or hold a table lock. If the scheduler is fair, the threads that live release their mutexes, calls come to an end, and dead threads are known to be dead, then every call of a thread that is not killed returns, except a wait for a condition without limit that nobody wakes; a thread waiting for a mutex of a killed thread obtains it with result 0.", "quantifier": "All executions without end of the machine of named mutexes and conditions: all numbers of threads, names and records, all interleavings, all moments of death (the window of C18 excepted).", "why_tests_cant": "A test kills a process at a few points and waits for a bounded time; it cannot show that no interleaving of deaths, checks and attempts leaves a survivor waiting for ever.", "anchors": ["lib/flcklistnmtx.cc FlListNMtx::lock", "lib/flcklistnmtx.cc FlListNMtx::check_dead_lock", "lib/flckbaselist.tcc fl_lock_mutex", "lib/flckshm.cc FlShm::CheckMutexDeadLock", "lib/flcklistwaiter.cc FlListWaiter::wait"]}
{"id": "C96", "title": "Calls return although threads are killed between two writes of the segment", "statement": "Threads may be killed anywhere, also between two writes of the shared memory file that enter or leave a record in a list. If the scheduler is fair, the threads that live release their mutexes, calls come to an end, and dead threads are known to be dead, then every call of a thread that is not killed returns, except a wait for a condition without limit that nobody wakes; a thread waiting for a mutex of a killed thread obtains it with result 0; and every check of dead owners ends whatever the other threads write meanwhile.", "quantifier": "All executions without end of the named mutexes and conditions in the cells of the segment: all sizes of the pools, addresses, contents left in memory, numbers of threads, names, interleavings of single accesses, and moments of death (the window of C18 excepted).", "why_tests_cant": "A test kills a process at a few points and waits for a bounded time; no test can show that walking lists being rewritten by others, or left half written by the dead, always comes to an end.", "anchors": ["lib/flcklistnmtx.cc FlListNMtx::lock", "lib/flcklistnmtx.cc FlListNMtx::check_dead_lock", "lib/flckbaselist.tcc insert", "lib/flckbaselist.tcc retrieve", "lib/flckshm.cc FlShm::CheckMutexDeadLock", "lib/flckshm.cc FlShm::CheckCondDeadLock", "lib/flcklistwaiter.cc FlListWaiter::wait"]}
{"id": "C97", "title": "A check for dead threads leaves nothing of them behind while others run", "statement": "When a check of dead owners (made by a lock call or by itself) has ended, no named mutex in the shared memory file is recorded as owned by a thread that was dead when the check began, and none ever will be again; when a check of dead waiters has ended, no condition has a waiter of such a thread, and none ever will again.", "quantifier": "All executions of the named mutexes and conditions in the cells of the segment: all sizes of the pools, addresses, contents left in memory, numbers of threads, names, interleavings of single accesses of all threads during the check, and all moments of death, also between two writes. The operating system's answers during this check are right (a dead thread is not taken for a living one).", "why_tests_cant": "A test runs a check alone or against a few schedules; it cannot show that no schedule lets a check miss a record while others enter records, take mutexes and are killed half way.", "anchors": ["lib/flckshm.cc FlShm::CheckMutexDeadLock", "lib/flckshm.cc FlShm::CheckCondDeadLock", "lib/flcklistnmtx.cc FlListNMtx::check_dead_lock", "lib/flcklistncond.cc FlListNCond::check_dead_lock", "lib/flcklistwaiter.cc FlListWaiter::check_dead_lock", "lib/flckbaselist.tcc retrieve"]}
{"id": "C98", "title": "Locks of processes that fork", "statement": "Processes fork at any time between calls of the library, also after having called it and while other threads are in calls. No two threads of parents and children ever own one named mutex at the same time or change the table of mutexes at the same time, conflicting range locks are never in force together, and nobody takes a lock away from a thread that has not ended. A forked child owns none of its parent's mutexes and range locks, the parent keeps them. Exactly those threads are taken for dead that have ended, and children (and their only thread) of a thread that had called the library before.", "quantifier": "All trees of processes and threads made by fork and thread creation, all interleavings of their steps in the file locks and in the mutexes and conditions, all deaths (except those in the windows of C02 and C18), all table sizes and contents left in memory.", "why_tests_cant": "A test forks at a few moments and would have to hit the check for dead owners while the child holds a lock; that nothing else can go wrong in any tree of processes is a statement about all interleavings.", "anchors": ["lib/flckutil.cc get_threadid", "lib/flckutil.h get_flckpid", "lib/flckutil.cc FindThreadProcess", "lib/flckutil.cc FlTidCache", "lib/flckbaselist.tcc fl_lock_lockid", "lib/flcklistnmtx.cc FlListNMtx::check_dead_lock", "lib/flcklistofflock.cc FlListOffLock::check_dead_lock", "lib/flckshm.cc FlShm::CheckProcessDead", "lib/flcklistlocker.cc FlListLocker::check_dead_lock", "lib/flckutil.cc GetFileDevNode"]}
{"id": "C99", "title": "Locks and the descriptors they were taken through", "statement": "A process locks ranges of a file through a descriptor, or without one. A lock that a thread holds stays in force until that thread unlocks it or ends, whatever descriptors are opened, closed or duplicated meanwhile by whom. When the thread has ended, the next check gives its locks free; when its process has ended, they are free at the latest.", "quantifier": "All processes made by fork, threads, tables of descriptors and changes of them at any time, processes whose descriptors may or may not be inspected, all interleavings of calls, checks and deaths, all table sizes and contents left in memory.", "why_tests_cant": "Whether a holder is taken for dead depends on the descriptor table of its process at the moment of the check; a test cannot place every close, fork and check at every step of other threads' calls.", "anchors": ["lib/flcklistlocker.cc FlListLocker::check_dead_lock", "lib/flckutil.cc GetFileDevNode", "lib/flckutil.cc FindThreadProcess", "lib/flcklistofflock.cc FlListOffLock::check_dead_lock", "lib/flckshm.cc FlShm::RawLock", "lib/flckshm.cc FlShm::CheckProcessDead"]}
{"id": "C100", "title": "What an ended process held is given back without anybody asking", "statement": "When a process that uses the library is killed or ends, every process that was started in a robust mode is told, its worker checks, and as soon as it has done so no named mutex is owned by a thread that is not there any more, and no such thread waits on a condition. It stays so, whatever other threads and processes do meanwhile.", "quantifier": "All processes, threads, kills and ends of threads at any time and at any step of their calls, all moments at which an ended thread leaves /proc, all interleavings with the workers and callers of other processes, answers about lives as old as the check, all table sizes, addresses and memory contents.", "why_tests_cant": "A test kills a process and looks some time later; whether the worker's check comes before or after the parent has waited for the killed process is a race it cannot steer, and it cannot show that nothing is left under all interleavings.", "anchors": ["lib/flckthread.cc FlckThread::WorkerProc", "lib/flckthread.cc FlckThread::CheckEvent", "lib/flckshm.cc FlShm::CheckProcessDead", "lib/flckshm.cc FlShm::CheckMutexDeadLock", "lib/flckshm.cc FlShm::CheckCondDeadLock", "lib/flckutil.cc FindThreadProcess", "lib/flckpidcache.h get_execution_cache"]}
{"id": "C101", "title": "The range locks of an ended process are given back without anybody asking", "statement": "When a process that holds or waits for range locks on open files is killed or ends, and some process started in a robust mode is there, then as soon as that process's worker has handled the event no range of any file is locked by a thread of the ended process and no request of it is left. Locks of processes that go on are not touched by the check.", "quantifier": "All processes, threads, kills at any time and at any step of their calls, all interleavings with the workers and callers of other processes, answers as old as the check, all table sizes and memory contents.", "why_tests_cant": "A test kills a process and tries the range some time later; it sees one interleaving of the kernel's closing, the worker's walk through the lists and the calls of others, and the walk goes on while others write lock words and flags.", "anchors": ["lib/flckthread.cc FlckThread::WorkerProc", "lib/flckthread.cc FlckThread::CheckEvent", "lib/flckshm.cc FlShm::CheckProcessDead", "lib/flckshm.cc FlShm::CheckFileLockDeadLock", "lib/flcklistfilelock.cc FlListFileLock::check_dead_lock", "lib/flcklistofflock.cc FlListOffLock::check_dead_lock", "lib/flckutil.cc GetFileDevNode"]}
{"id": "C102", "title": "The range locks of an ended process come free sooner or later", "statement": "When a process is killed or ends while a process started in a robust mode watches and goes on, then after finite time no range of any file is locked by a thread of the ended process, for ever, whatever the other processes do: the kernel tells the watcher, its worker reads the event, gets the internal lock of the tables, finishes its walk and waits again. Nobody keeps the internal lock for ever, not even a thread killed while it had it, and a thread that asks for it gets it.", "quantifier": "All infinite executions of any number of processes and threads with kills at any step, in which a thread that is able to go on again and again does so, and the kernel closes the descriptors of ended processes; all table sizes and memory contents.", "why_tests_cant": "\"Sooner or later\" is about infinite executions; a test that waits some seconds sees neither a worker that is overtaken for ever nor a lock held by a thread that died inside, and cannot tell slow from never.", "anchors": ["lib/flckthread.cc FlckThread::WorkerProc", "lib/flckthread.cc FlckThread::CheckEvent", "lib/flckshm.cc FlShm::CheckProcessDead", "lib/flckshm.cc FlShm::CheckFileLockDeadLock", "lib/flckbaselist.tcc fl_lock_lockid", "lib/flcklistofflock.cc FlListOffLock::check_dead_lock"]}
{"id": "C103", "title": "What was written before a signal is seen after the wait", "statement": "A wait on a condition returns with success only after a signal of another thread that took effect after the wait had entered itself as waiting, also on processors that delay plain writes (x86-TSO). Everything the signalling thread saw or wrote before the signal is seen by the woken thread afterwards, unless it is written again; no mutex is needed for that. A signal that finds a waiter does not return before the waiter is told, a waiter that is told returns at its next look, and a wait without time limit never returns without being told.", "quantifier": "All programs of any number of threads that wait, signal and read and write data in any way, all interleavings and all delays of the store buffers, kills at any time.", "why_tests_cant": "Whether data written before a signal can be missed by the woken thread depends on delays of single processor writes between two instructions; a test on one machine sees the usual delays only.", "anchors": ["lib/flckbaselist.tcc fl_wait_cond", "lib/flckbaselist.tcc fl_timedwait_cond", "lib/flckbaselist.tcc fl_force_set_cond", "lib/flcklistwaiter.cc FlListWaiter::rawlock", "lib/flcklistwaiter.h FlListWaiter::is_wait", "lib/flcklistncond.cc FlListNCond::rawlock"]}
{"id": "C104", "title": "Calls that start the library, from several threads", "statement": "When the library is not attached and is set to try again (the two retry modes), the lock call of a thread starts it. Whatever other threads of the process call at the same time, no call uses memory outside of a complete segment, and an exclusive lock is given to one thread only and not lost. The same holds while one thread calls fullock_reinitialize. (False; it holds if no other call runs while a call starts or ends the library, and no lock is kept over a reinitialisation. Calls of any number of threads at the same time are safe once a start has been completed, and as long as the segment file cannot be opened.)", "quantifier": "All numbers of threads and of other processes, all orders of their single steps (reads and writes of the library's variables, system calls of the start), every refusal of the system; full claim without any rule for the user, proved part with the two rules named.", "why_tests_cant": "The failures need two threads inside of a few instructions of the start; a test that starts threads almost never hits them, and says nothing about the orders it did not see.", "anchors": ["lib/flckshm.cc FlShm::CheckAttach", "lib/flckshm.cc FlShm::RawLock", "lib/flckshm.cc FlShm::ReInitializeObject", "lib/flckshminit.cc FlShm::InitializeShm", "lib/flckshminit.cc FlShm::InitializeShmFile", "lib/flckshminit.cc FlShm::Attach", "lib/flckshminit.cc FlShm::Detach", "lib/flckshminit.cc FlShm::Destroy"]}
{"id": "C105", "title": "Debug log used by several threads", "statement": "Threads print messages, name a debug log file and unset it (SetFlckDbgFile, UnsetFlckDbgFile) at the same time. The stream library is given open streams only: no message is written to a closed stream or a null pointer, and no stream is closed twice. When all calls have returned no stream is open but that of the log. (False; it holds if one thread at a time changes the log file, an existing log is changed only while no other thread is in the debug control, and nothing is printed until the old one is gone. Then a message goes to the log of that moment. Any number of threads may print while the first file is named.)", "quantifier": "All numbers of threads, all orders of their single steps, every outcome of opening a file, one or two loads of the variable in the printing macro; full claim without any rule for the user, proved part with the rules named.", "why_tests_cant": "The failures need a thread between the test of the variable and the write; a test almost never hits them.", "anchors": ["lib/flckdbg.h LOW_FLCKPRINT", "lib/flckdbg.h FLCKPRINT", "lib/flckdbg.cc FlckDbgCntrl::SetFlckDbgCntrlFile", "lib/flckdbg.cc FlckDbgCntrl::UnsetFlckDbgCntrlFile", "lib/flckdbg.cc flckdbg_fp"]}
{"id": "C106", "title": "What the dump prints can be read back", "statement": "The text of a dump, cut at its line ends, shows the records the dump visited and nothing else: their kinds, order, levels, addresses and all members printed can be read back from it, and no line shows a record that does not exist. (False for names with line ends, which the library accepts and prints as they are; it holds for all other names.)", "quantifier": "All sequences of items, all levels, addresses, values and names; numbers of any size and sign.", "why_tests_cant": "Two different segments with the same text have to be excluded for all values and names; a test compares a few texts.", "anchors": ["lib/flckshmdump.cc FlShm::Dump", "lib/flckutil.h to_hexstring", "lib/flckutil.h spaces_string", "lib/flcklistnmtx.cc FlListNMtx::dump", "lib/flcklistncond.cc FlListNCond::dump", "lib/flcklistwaiter.cc FlListWaiter::dump", "lib/flcklistlocker.cc FlListLocker::dump", "lib/flcklistofflock.cc FlListOffLock::dump", "lib/flcklistfilelock.cc FlListFileLock::dump", "lib/flckbaselist.tcc fl_list_base::dump"]}
