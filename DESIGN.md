# Formal model of libmonitor: design

Source: `/repo` (HPCToolkit/libmonitor, C, at the pinned commit).  Model and
proofs: Lean 4.33 in `/verif/lean`, modules under `lean/Verif`.

## Layout

Each area has its own directory with
* `Model.lean`  – the code, function by function, every definition cites file and lines;
* `Spec.lean`   – what the property says, written without the model's helpers (where one is needed);
* `Lemmas*.lean`– invariants and auxiliary facts;
* `Props.lean`  – the property theorems (named `Cnn_...`), each with an `example` showing
  that its hypotheses are met by a non-trivial case.

## Trusted base

* Lean's kernel.  Axioms used: only `propext`, `Classical.choice`, `Quot.sound`
  (no own axioms, no `sorry`, no `native_decide`, no `bv_decide`).
* The reading of the C code recorded in the comments of the model definitions.
* Concurrency is sequentially consistent at the granularity of the shared accesses
  named in the model (`volatile` flags, CAS, spinlock), except in `Wm`, which has the lock
  and the flags on machines with store buffers.  Compiler reordering is not modelled.
* External functions (libc, kernel, pthreads, client callbacks, application code) are
  inputs of the model: the theorems quantify over everything they may do.
* Not modelled: debug output, the `MONITOR_DEBUG` variable, `config`/autoconf
  choices other than the ones named, the `#if 0` blocks, C++/exceptions.

## Models

* `Proc`  – main.c and pthread.c (and the process-level part of fork.c, signal.c) as one
  interleaving transition system.  A thread is a stack of frames (program counter +
  locals); application code and client callbacks are frames that may call any API
  function, return, be cancelled, or be interrupted by a shootdown signal.  A process
  state has arbitrarily many threads.  Reachability is closed under steps and
  under "become the fork child of a thread".
* `Queue` – LIST_INSERT_HEAD / LIST_REMOVE on a heap of next/prev pointers.
* `Lock`  – spinlock.h / atomic.h with arbitrarily many threads, including LL/SC CAS.
* `Shoot` – the scan/timeout loop of monitor_thread_shootdown as a function of the
  observations.
* `Sig`   – signal.c: per-signal table, kernel dispositions, masks, dispatch, choice of
  the shootdown signal; sigwait family.
* `Fork`  – fork.c: environment copy, varargs copy, PATH search, system(), fork(), exec*.
* `Attr`  – stack-size adjustment in pthread_create.
* `Mpi`   – mpi*.c, pmpi.c call trees.
* `MpiC`  – the same wrappers as an interleaving machine: threads, handlers, failing calls.
* `SigC`  – the signal actions (entry of one signal) as an interleaving machine of calls and deliveries.
* `Args`  – the arguments of main and the exit status, as an interleaving machine.
* `Wrap`  – the 32 MPI wrappers with their static pointers, as an interleaving machine.
* `Err`   – errno and dlerror along the overridden libc functions.
* `Term`  – signals that end the process: handler, kernel actions, masks, as an interleaving machine.
* `Wm`    – spinlock.h, atomic.h and flags on machines with store buffers.
* `SysC`  – monitor_system as an interleaving machine: threads, handlers, callbacks, cancellation, the children it makes.
* `AttrC` – pthread_create's use of attribute objects as an interleaving machine: threads, callbacks, handlers, fork, longjmp, any number of shared objects.
* `EnvC` – monitor_real_execve with the shared static array of monitor_copy_environ as an interleaving machine, with the kernel's reading of the array cell by cell.
* `Once` – monitor_early_init, monitor_normal_init, monitor_begin_library_fcn and monitor_begin_process_fcn with the guard MONITOR_RUN_ONCE in two steps (test, set), called from any number of threads, handlers and callbacks. Proc takes the guard as one step; Once shows when that is right (`C83_library_first`) and when not.
* `SigI` – monitor_signal_init with the guard in two steps, the choice of the shootdown signal in its steps, and monitor_shootdown_signal, monitor_sigaction, sigaction from any number of threads and handlers. Sig takes monitor_signal_init as one step; SigI shows when that is right (`C84_init_first_partial`) and when not.
* `Start` – __libc_start_main, __wrap_main and the address of main, as an interleaving machine.
* `Utils` – utils.c on a byte buffer with out-of-bounds writes as an explicit outcome.
* `Dl`    – common.c symbol lookup and dlopen.c.
* `Fence` – start-function fences.
* `Names` – every function pointer, which function fills it in and which calls it, with the
  run-once guards, as an interleaving machine over all entry points.
* `Script`– monitor-run.in and monitor-link.in argument handling.

Undefined behaviour in C (out-of-bounds write, reading past a va_list, NULL
dereference, use of a dead stack frame, pthread_kill on a dead thread) is a distinct
outcome of the model.

## Properties: plan

| id | modelled in | how proved |
|----|-------------|------------|
| C01 | Proc | invariant tying the CAS cookie to the unique frame that may deliver the callback; holds for every fork depth |
| C02 | Proc | same invariant, plus frame order and the `how` local |
| C03 | Proc | invariant on the done flag (all executions); that the re-entering thread is the delivering one: the mark in a thread's own record (`winS_inv`), `Clean` executions. The re-entry exception is necessary; a dying thread whose record the delivering thread has got (outside `Clean`), and the child of a thread unknown to the library, pass wrongly (witnesses) |
| C04 | Proc | invariant: the init flag or the one frame that may call init-process. False for a fork inside monitor_init_library (the child's own start and the frame copied from the parent both call it) and for a handler that enters the library in the child before its process start (witnesses); proved when no process is forked inside the process start and no handler runs in a child before its start |
| C05 | Proc | invariant: thread-side frames exist only after the init event of this process. False for pthread_create inside monitor_init_library and for children of monitor_real_fork, which never start (witnesses); proved otherwise |
| C06 | Proc | in every execution the data is the value last given to main's record (init-process's result, or what a reset in a child left); equal to this process's init-process result when init-process has returned before any exit, and no monitor_real_fork or fork inside init-process is used. False in those cases (witnesses) |
| C07 | Proc | init half proved for all executions of Proc, which takes MONITOR_RUN_ONCE as one step; with the guard in two steps it needs that the first initialisation is over before handlers and other threads call (C83). fini half false: two exiting threads, exit inside monitor_fini_library, failed exec before the process start (witnesses); proved otherwise |
| C08 | Proc | init part proved for all executions. Exit part false for children made while the parent exits: cookie is not reset (child hangs), winner mark is inherited (no callbacks), exit flag is inherited (threads refused) (witnesses); proved if no thread forks after an exit function has been entered |
| C09 | Proc | invariant on the counter and the trace: numbers increase in every execution. That a thread is told its own number (and init-thread gets it) needs ownership of the record; proved for `Clean` executions, false after fork from a created thread (witness) |
| C10 | Proc | `Clean` executions: the ownership invariant over list, free list, array and frames gives: no sharing between live threads, owned records are not available, no step of another thread writes to them, the record is the one the thread was made with, and what monitor_get_user_data reports. All executions: records lie inside their arrays (`array_inv`). Witnesses: a thread in its destructors still sees its old record; outside `Clean` two live threads get one record |
| C11 | Proc | frame order (all executions): start once, after init-thread has returned. Start routine, argument and data are read from the record: ownership, `Clean` executions; witness outside |
| C12 | Proc | false for a shootdown signal inside the check/set window (witness) and for a dying thread whose record another thread has (witness outside `Clean`); proved for all other `Clean` executions: as long as a thread owns a record, a started fini-thread is noted there (`once_inv`; main's note is cleared by the exit cleanup, before which main cannot have started it) |
| C13 | Proc | ownership of the record, `Clean` executions; false for exit inside init-thread and outside `Clean` (witnesses) |
| C14 | Proc | false for the exiting thread if it calls exit inside its own fini-thread callback (witness), and for a thread whose record a dying thread still refers to (witness outside `Clean`); proved for all other `Clean` executions: registered threads that have not returned from fini-thread are on the list (`listD_inv`), and each walk that ends with nothing unfinished has found their records done (`walk_inv`, `finished_inv`) |
| C15 | Proc | invariant: linking after the flag is refused; all executions |
| C16 | Proc | `Clean` executions: the list changes only in bt2, ul1, sd3, the fork reset and first support; the flag and the lock rule each out for threads other than the one cleaning up. Witness outside `Clean`: a handler in a fork child starts exit cleanup in a new thread before main resets the list |
| C17 | Proc | no init-thread: frame order, all executions. No fini-thread, and which creations are ignored: ownership, `Clean` executions; `C17_child_confused` is an execution outside `Clean` where an ignored thread gets fini-thread. The start routine: invariant that the bottom frame of the thread enters it |
| C18 | Proc | all states: no step of a call waits and each leaves fewer steps (`brLeft`); failure iff list in use and lock taken. `Clean` executions: the caller is never the target unless the process forks within the call (witness); an invariant over the frame that walks the list, with the targets so far and the history before the call (`callOf`); the lock keeps the list still (`lock_inv`), and what is on the list is known (`listI_inv`). Main is signalled twice during exit (witness) |
| C19 | Shoot | the loop as a function of an arbitrary infinite stream of observations (clock, thread states); termination measure on (threads not yet started, clock); no bound on threads. Shown separately: a fini-thread callback that never returns keeps the loop alive |
| C20 | Proc | `C20_info_partial` (clean executions, threads whose creations are neither ignored nor nested): a query gives the creation in progress, and fails when there is none. False after an ignored creation, which leaves a pointer to a dead stack frame (`C20_ignored_dangling`); after a nested creation (`C20_nested_cleared`); in the fini-thread of a thread ended inside of a creation (`C20_unwound_creation`); in the child of an ignored thread that forks while main creates (`C20_forked_info`); and in the child of a thread that forks inside of its own creation (`C20_forked_creation`). The creation starts where pthread_create publishes the information (pthread.c:1091), after monitor_thread_list_init |
| C21 | Attr | all outcomes of the attr calls. "The attribute is unchanged afterwards" is false when restoring the old size fails, when the caller passed the default attribute (the size becomes a frozen copy) and when two threads share one attribute (witnesses); proved otherwise. Several threads: C79, C80 |
| C22 | Proc | order and "once": frame order and a token per call, all executions; the value is the pre-create value or the value of the new thread's init-thread in `Clean` executions as long as the new thread's fini-thread has not returned (an invariant tying the creator's pending post call to the new thread's frames and record). Witnesses: the init-thread value (`C22_wrong_value`), the value of somebody else's thread that has got the record of a thread that has ended (`C22_others_value`), and the same in a child (`C22_forked_value`) |
| C23 | Lock | inductive invariant lock word = number of holders over any interleaving of any number of threads, with handler frames on top of interrupted ones, LL/SC reservations, frames left by long jumps, cancellation or the end of the thread, and fork |
| C24 | Queue | heap refinement: representation predicate of a list, any length |
| C25 | Sig | pointwise loop lemma; kept-flag exact characterisation over histories; other signals act as on a plain kernel |
| C26 | Sig | simulation: all replies equal those of a plain kernel table |
| C27 | Sig | invariant over histories |
| C28 | Sig | agreement with an independent specification of dispositions after any history; false for a *sent* SIGSEGV/SIGBUS/SIGILL (witness) |
| C29 | Sig | false (witnesses); what does hold is proved as partial |
| C30 | Sig | case analysis over the candidate search; validity is false for env = 32 (witness) |
| C31 | Sig | induction over the stream of wakeups; a second queued shootdown request leaks to the application (witness) |
| C32 | Fork | list induction with buffer bounds; "only LD_PRELOAD is dropped" is false (witness) |
| C33 | Fork | induction over the argument list with array growth; NULL first argument is UB (witness) |
| C34 | Fork | agreement with an independent PATH search spec; empty elements and unset PATH differ (witnesses) |
| C35 | Fork | all outcomes of fork/exec/wait |
| C36 | Proc | frame order; token argument for "once" per call of fork; exclusion of post-fork and child; all executions |
| C37 | Mpi | induction over call trees |
| C38 | Mpi | invariant over histories |
| C39 | Utils | buffer model, every size; size 0 and huge list members are UB (witnesses) |
| C40 | Utils | round trip through an independent decoder |
| C41 | Dl | objects with symbol tables, global scope, load order, dependency search; agreement with an independent specification for every process. False: a library loaded later that depends on libmonitor makes the fallback return the own wrapper (witness); and if dlopen or dlclose itself has no next definition the lookup of a name without one recurses without end (proved for every depth). `C41_first` tells for every process and every name which of the cases its first lookup is; `C41_init` that the wrappers of dlopen and dlclose find each its own real function |
| C42 | Dl | small-step interleaving of any number of threads with nested calls inside callbacks, constructors and lookups; each thread's events form a beginning of a bracket grammar, in which calls left by longjmp, an exception or the end of the thread are unfinished brackets; no call through NULL during concurrent initialisation |
| C43 | Fence | compiled start functions as instruction lists between the labels, any layout; label order and an instruction behind the last label are needed (witnesses) |
| C44 | Script | induction over the command line, both directions (what runs has the documented form and vice versa); preload order false for names with colon or space (witness) |
| C45 | Script | induction over the command line; shape theorem for all words, exact line for words that unquoted expansion leaves alone; false for names with spaces (witness) |
| C46 | Fork, SysC | false for overlapping calls, calls that are cancelled in waitpid, processes forked during a call of another thread, and actions set meanwhile (witnesses). In `SysC`: all executions, only SIG_IGN or an action of the application is ever installed; properly nested calls, in whatever threads (the call that restores is the one that replaced last): chain of the actions found by the open calls |
| C47 | Sig | false: restarts with the full timeout (family of witnesses, any bound); bound per wakeup proved |
| C48 | Sig | false: application sigaction on that signal replaces it (witness); proved if nobody sets an action for it |
| C49 | Sig | false for SA_RESTART and SA_ONSTACK, for all signals and histories; other flags proved |
| C50 | Sig | false for SIG_IGN (all histories); SA_NOCLDWAIT proved |
| C51 | Lock | false in a fork child (lock not reset), after the holder was interrupted and ended or left by a long jump, and in a handler that interrupts the holder (witnesses, for every continuation); solo progress proved otherwise |
| C52 | Attr | false when the client asks for more stack (witness); proved when it does not |
| C53 | Fence | false when the call before the second label directly precedes it, as monitor_at_main may (all such layouts); proved otherwise |
| C54 | Names | false when a signal handler or the overridden dlopen of the lookup re-enters the library inside a run-once initialisation, which is marked as done before it runs (two witnesses); proved when nothing disturbs an initialisation, by a verified checker over the code of all entry points |
| C55 | Proc | broadcast: the lock is held from the test of a record to the signal, and a thread that ends must take it to unlink (`alive_inv`, `kill_inv`); proved for created threads before the exit cleanup, when no thread blocks shootdown, none calls pthread_exit in its fini-thread callback, and the process does not fork within the call; each exclusion has a witness. Exit cleanup: false, no lock is held and the thread can run its cleanup and end between test and signal (`C55_ended_before_signal`); proved that the target is a thread of the process, and lives unless it has begun fini-thread. A fork from a handler within the exit leads to pthread_kill of the zero pthread_t (`C55_null_after_fork`) |
| C56 | MpiC | counter = number of open calls of the one thread that is inside, as an invariant over its stack; each thread's history follows a grammar of callbacks. False when two threads initialise at once, for a handler inside the update, and after cancellation (witnesses); proved otherwise |
| C57 | MpiC | origin of published pairs: all executions. First and stable: invariant over the one call that stores; false when two calls overlap (size of one query and rank of another; reports change) or one is cut short (witnesses); proved otherwise. A failed query is published as it is (witness), a NULL rank pointer crashes the wrapper (witness) |
| C58 | Proc | three kinds of wait, ranked; invariant that no call runs on top of one it may have to wait for, and that the lock, the exit cookie and a begun fini-thread each have a live thread responsible. False when that thread is ended, crashes or exits again inside (a crash in fini-thread during exit hangs the process; so does a crash in an exit callback of a thread without record), when a handler interrupts the lock, in some fork children, and after an exec that fails before main (witnesses); proved otherwise, in three forms: some thread of the chain can make a step (`C58_no_deadlock_partial`), and the other threads, going on without new calls, can bring the waiting thread to a state in which it need not wait (`C58_released_partial`: the lock holder leaves the lock, then the fini-thread calls end by a potential that counts the calls still to come, then the loop of the shootdown ends, then the exit callbacks); and under a fair scheduler, with arbitrary outcomes of external calls, every execution in which nothing new is called comes to rest, with the process or all its threads gone, so every waiting thread is released (`C58_rest_partial`, `C58_fair_partial`: every step outside the polling loop of the shootdown decreases a measure, and the polling loop ends because whom it waits for can go on and the timeout runs out). Not covered: threads that enter the library again and again, since the spin lock is not fair (`C74_starves` shows a thread that waits for ever while others take the lock again and again) |
| C59 | SigC | the entry of one signal, field by field. All executions: single words come from some setting. Invariant per line of the one call in progress: handler old or new, old action returned right, kernel told last setting; no call overlapped by a delivery: action applied complete. False otherwise (witnesses: SA_SIGINFO handler called without siginfo by a single thread, NULL called, old action reported twice, handler of one setting with the kernel flags of another, action half set after longjmp) |
| C60 | Args | each load and store of monitor_argc/argv/envp is a step. All executions: main once with the original arguments, status passed through, no invented values. If nothing enters the library before init-process of monitor_main: callbacks get exactly the arguments, count as the client left it (invariant: before the stores no library code and no client store; after, the variables follow the history). False otherwise (witnesses: init-process before main with (0, NULL), torn pair in init-process and in the Fortran mpi_init, client's count overwritten by main, client's count reaches wrap-main and the child but not main) |
| C61 | Wrap | tables of variables and names per wrapper; calls are numbered, so that the spec can speak of 'this call'. Invariant: a set variable holds an address found under the name of the variable; a call on a stack is in the history as entered by that thread, with its stage; numbers on a stack are distinct. All executions. Simplification: a lookup that gives NULL ends the process (dlsym may give NULL without an error only for a symbol of value 0) |
| C62 | Proc (`Bottom`) | the states of Proc with the field tn_stack_bottom added (nothing in the library reads it). In records of created threads the field goes with tn_self (all executions), so the ownership invariant of C10 gives the thread; for the initial thread an invariant over main's record and, in a new child, the record it is copied from. `Clean` executions, for the initial thread without forks by ignored threads. Witnesses: the child of an ignored thread reports the parent's main stack (pthread.c:335-337 warns only); a thread in its destructors reports another thread's values |
| C63 | Proc (`Ub`) | the model marks a list operation with stale links as undefined behaviour (`ub`: unlinking a record that is not on the list, linking one that is). Follows from the ownership counts of C10 (`new_excl`, `linked_inv`); for the initial thread's record from the token of the one exit call that wins (all executions). `Clean` executions. Witnesses: a thread that forks in its start routine and returns from it in the child unlinks a record that is not on the child's list (pthread.c:434); a thread created by a handler in the child before the reset shares its record with a later one, and the record is on both lists |
| C64 | Proc with the heap of Queue (`Ptr`) | the same executions with the links in memory: every step of pthread.c that uses a LIST macro or clears a record with memset runs the macros of `Queue` on a heap (`links`); malloc extends it; NULL is an address that is not allocated. Invariant: the heap represents the two lists (`Represents` of C24), each macro's condition is met because of C63. For walks: the rest of a walk is a suffix of the list (the lock excludes unlinking during a broadcast, the exit flag during the cleanup). `Clean` executions, for walks without a fork by a handler during the walk (witness `C64_walk_cut`: main's record is cleared in the child and the walk ends there; the model's own loop goes on with the parent's list in that case). Witness: a thread that forks in its start routine and returns from it in the child puts a thread of the parent on the child's list (LIST_REMOVE through a stale le_prev) |
| C65 | Err | errno along each override; every external call (real function, callback, message, other parts of the library) returns any value and may leave any value in errno. The log of external calls with errno before and after is the trace; `Last` picks the last real call, induction over the restarts of waitpid and of the sigwait loop. fork, system, exec*, dlopen: only if callbacks, warnings and debug messages after the real call leave errno (dlerror) alone; witnesses where they do not. A handler that interrupts an override is assumed to restore errno |
| C66 | Term | kernel actions, masks and the death of the process with any number of threads; handlers are interrupted, callbacks and handlers call sigaction, sigprocmask, monitor_real_abort. All executions: invariant that a default action in the kernel means that monitor_end_process_fcn or monitor_real_abort was called; monitor_real_abort never returns; the uninterrupted handler always kills. That raise kills: invariants that the default action stays and that the mask at raise is empty (also after nested handlers return), in `Calm` executions; false when another thread gets through sigaction in between, and for a SIGSEGV that was sent; a fault while blocked kills without callbacks (witnesses) |
| C67 | Wm | spinlock.h on machines with store buffers: in order (x86), in any order with a barrier in unlock (PowerPC), in any order without (Arm with the GNU builtin). Mutual exclusion on all of them: the lock word is 1 while a thread is inside or its store of 0 is delayed. Inside, loads get the last store: invariant that delayed stores to protected data cannot be passed by the store of unlock. False on Arm: unlock has no barrier (witness) |
| C68 | Wm | stores are numbered; invariant that in-order buffers make memory contain everything a thread stored before a value that is seen. x86; false where stores may pass each other (PowerPC, Arm: witness) since the flags have no barriers |
| C69 | Proc (`Weak`) | a second step function with main.c's weak definitions; invariant that no execution of it leaves the states before the first pthread_create, where both step functions agree; so the reachable states are the same |
| C70 | Proc (`Weak`) | the same machine with threads made behind the library's back. Token invariant for the callbacks, stack invariant for the exits. False in the last part: all threads have main's record, a second exiting thread is taken for the first one calling exit again and does not wait (witness) |
| C71 | Proc (`Ended`) | nothing new is modelled. Invariant: a registered thread that has entered its start routine either is in front of (or in) its cleanup routine with an unfinished record, or fini-thread has returned in it; together with the shape of the stacks (what an unwinding leaves). `SpecEnded` adds to `Clean` that nobody ends while blocking the shootdown, and nobody ends twice; without either the statement is false (`C71_blocked`, `C71_ended_twice`) |
| C72 | Proc (`Exits`) | nothing new is modelled; the fair executions are those of C58 (`FairRun`). The process comes to rest (C58), and an exiting thread cannot be gone while the process is alive. What ends a process is a case analysis of the steps: a hooked exit comes after the release (C03), the release after fini-process, because nobody is taken for the repeat winner while the callbacks are being delivered (`again_inv`: in orderly executions the delivering thread does not call exit, in clean ones no other thread has its mark). Exceptions named in the statement are real (`C72_real_exit`) |
| C73 | Start | machine of __libc_start_main (x86, PowerPC), __wrap_main, monitor_normal_init and monitor_get_addr_main, any number of threads; libc's start function is foreign code that calls what it was given (PowerPC: what new_stinfo holds then). Frames know the call they serve, and counting of frames and events gives "once for each call". Proved in all executions in which `stinfo` points at four words: parameters, order, arguments of main, no invented address. With one call of __libc_start_main in the process also exact. False, with witnesses: two calls (the second main runs twice; PowerPC: libc may call the wrong main without monitor_main, because new_stinfo is static), NULL in constructors |
| C74 | Lock (`Fair`) | nothing new is modelled; endless executions (`FairRun`) without handlers, forks and spurious losses of reservations. The holder releases; while the lock is free and nobody gets it, the word and the reservations stay, so that the next steps of the thread that waits take it. The second half is false: the lock is not fair (C74_starves: a periodic fair execution in which a thread tries for ever in vain, for both implementations); a thread that waits for ever is overtaken for ever |
| C75 | Proc (`Support`) | the test of monitor_thread_support_done, its assignment, the call and the return are four steps. `CleanSup` executions: `Clean`, and while a call of pthread_create is between the test and the return its thread neither calls pthread_create again nor ends, and no other thread forks. Before the first return only the initial thread finds a record (the others are ignored threads), so that no two threads are in the gap; its stack then shows where it is. The claim is false otherwise, each with a witness: handler between test and assignment (C75_twice), between assignment and call (C75_before), creation inside the callback (C75_nested), initial thread ends in it (C75_ended), fork by an ignored thread in the gap (C75_forked). And it is false for children: monitor_reset_thread_list clears monitor_has_used_threads but not monitor_thread_support_done, so a child that makes threads gets no call of its own (C75_child, in a `CleanSup` execution); what holds is "once, first" along the line of ancestors. |
| C76 | Proc (`Asked`) | monitor_is_threaded is a step that reads the flag; the weak version (main.c:674) is in Weak. `CleanAsk` executions (`Clean`, and no thread ends between the creation of the thread list and the rest of pthread_create): the answer is 1 iff a call of pthread_create is in this process's own history or in progress past the list's creation. With a second thread the answer is 1 in all `Clean` executions. False otherwise: a handler in a new child before the reset (C76_inherited), a handler that forks inside pthread_create (C76_lost: a thread is made, and the answer is 0). |
| C77 | SysC | mask, all executions: every frame knows the mask it resumes with. Actions: the child has one thread, and what the frames above will restore is computed from the stack (`undoAll`), so that handlers that call system() in the child are included; missing handlers that set actions or leave the child. What the call found is the application's action if no other call is open (chain invariant of C46); false for a second call, even a properly nested one: its shell ignores SIGINT and SIGQUIT (witness) |
| C78 | SysC | all executions: the events of a call are exactly those that its frame has come through (`path`), in one thread, a prefix of one of three scripts; complete if the call has returned. SIGCHLD blocked while waiting, and the mask restored afterwards: masks as in C77. The child stays inside until exec or exit, unless a handler leaves it by longjmp (witness) |
| C79 | AttrC | all executions: what a call has done is determined by where it is (`Told`), a prefix of one of six scripts, complete if it has returned; only calls left by longjmp leave their object behind (witness) |
| C80 | AttrC | an object used by one call at a time (everything else arbitrary) is clean, or dirty by the one running call, which remembers the old size. False when calls overlap: the size then doubles with every pair of calls, although the comment in the source says that it does not keep increasing (witness for every n); when the application changes the object during a call, when a frame is left by longjmp, and in a child forked by another thread (witnesses) |
| C81 | AttrC | executions in which the client's answer is the size it was told (`Agrees`, which the default callback in callback.c:119-124 does); invariant: no call is ever at the points that set or restore a size, so objects are what the application made of them at all times (`C81_untouched`) and each real call gets the application's pointer (`C81_passed`). In contrast to C80 nothing is assumed about who uses an object when |
| C82 | EnvC | all executions: invariant that the array of a call holds its own strings as long as no other call has stored into it, and that the last cell of the static array is never written, so the kernel always finds a NULL. Exact if no other call stores meanwhile (`Quiet`), or if the environment is too large for the static array. False otherwise: two threads mix their environments (`C82_mixed`), a handler whose call fails replaces the environment of the interrupted call (`C82_handler`) |
| C83 | Once | all executions. If no call tests a flag while another is between testing and setting it: each function runs at most once. If nobody calls monitor_early_init or monitor_normal_init while a call is in the middle of it: the record is initialised for everybody behind them, and its user data is what was stored last. Both hold without hypotheses on calls when the first monitor_begin_library_fcn (the constructor) finishes before other threads and handlers come (`C83_library_first`). False otherwise: a handler between test and set has monitor_init_library called twice (`C83_twice`), one in the middle of monitor_early_init gets monitor_init_process called with an uninitialised record and before monitor_init_library (`C83_unready`), and its user data is cleared afterwards (`C83_wiped`). `C83_recursion`: a thread made in monitor_init_library has monitor_init_process called before monitor_init_library has returned |
| C84 | SigI | all executions: the answers are valid signals (`C84_valid_partial`). The rest if monitor_signal_init has finished for the first time before other threads and signals come (`C84_init_first_partial`: the answers are all the same, the signals are kept open, every delivered signal finds the last client handler and the last application action, libmonitor's handler stays installed). False otherwise: a thread that asks during the first initialisation changes the number that the first thread has been told (`C84_changes`); the client's handler set then is cleared (`C84_lost`), the application's action is replaced by the default (`C84_forgotten`); two threads in the initialisation make libmonitor's handler its own saved action, on which it would call itself for ever (`C84_own`) |
| C85 | Proc | proved for all executions of Proc (`C85_sourced`); with the default callbacks of callback.c all data are NULL (`C85_default`). It says less than C06, C13, C22 (whose data), but has no hypotheses. `C85_real_fork`: the exception for monitor_real_fork does happen |
| C86 | Proc | executions are followed with two lists beside the state: the calls that were given a record and the threads that gave theirs back (`Exec`). All executions of a process (not followed into a child): the account (`C86_account`), one record per call (`C86_one_each`), the bound by the largest number of records out (`C86_peak`). That threads which ran and are gone have given theirs back (`C86_reused_partial`): executions in which threads end well (as for C71), before the exit cleanup. False otherwise: a call of pthread_create that fails never gives its record back, so that a process that keeps trying grows without bound (`C86_failed`, for every number); a thread that ends with the shootdown blocked (`C86_blocked`) or in its init-thread callback (`C86_ended_early`) keeps it, too. When malloc fails for another array, MONITOR_ERROR is reached with the list lock held: in a statically linked program, where the exit inside errx is libmonitor's, the shootdown then waits for the lock of its own thread and the process hangs (`C86_error_in_lock`, after 600 records) |
| C87 | Proc | from the history alone, the list of what a thread has begun and not ended (`opened`; 12 kinds of callbacks and 3 of calls, with call numbers, thread numbers and the reason of exit). All executions: each end is the end of the innermost (`C87_nested`). If threads are ended outside calls and callbacks, nothing stays open (`C87_all_ended`); otherwise it does (`C87_cancelled`). Not in the history, so not covered: monitor_at_main, monitor_reset_stacksize (they have no return event) |
| C88 | Proc | all executions: on the stack of a thread, the call right above a place inside the list lock is a signal handler (`C88_unlocked`). Executions in which no handler begins inside the lock: code of client and application runs outside it (`C88_client_code`; who holds the lock is followed beside the state, `ReachO`), no thread waits for itself (`C88_not_itself`). With handlers inside the lock a callback can run there (`C88_in_handler`), and then deadlock (see C58). A failed malloc inside the lock ends in MONITOR_ERROR; in a statically linked program this calls the begin-exit callback inside the lock and hangs, which counts as a handler here (`C86_error_in_lock`) |
| C89 | Proc | what each thread last asked for is followed beside the state, from its calls (`ReachK`, `kept`), and compared with the flag in the records (`block_inv`: main's record, the records of created threads, child before its reset). `Clean` executions with the three conditions (`Blocking`): fini-thread from handler, cleanup routine and sigwait only in threads that are not blocked (`C89_blocked_partial`). Each condition is needed: `C89_forked`, `C89_unknown`, `C89_window`; the exiting thread: `C89_winner`. The answer, all executions: `C89_answer`; it is 1 also in a child forked during the parent's exit (`C89_answer_child`). The model has no event for the return of monitor_block_shootdown, its value is `blockAnswer` |
| C90 | Proc | a layer over Proc (`Cancel`): cancelability of each thread and the saved `old_state` of its active calls; a cancellation takes effect at any frame when enabled (more than the C library allows). Invariant `CInv`: the saved states match the guarded calls on the stack. `C90_protected` and `C90_restored` for executions in which foreign code does not call pthread_setcancelstate inside guarded calls (`Settled`), `C90_completes` if it does not call pthread_exit there, either (`Steady`); both conditions are needed (`C90_enabled_inside`, `C90_exit_inside`). Not protected in the C code: fini-thread from the cleanup routine (pthread.c:928-932; cancelled in it, the thread leaves its record unfinished and a later exit loops for ever, `C90_cleanup`) and begin-process-exit (main.c:318; the other exiting threads then wait for ever, `C90_begin_exit`). Cancellation of the library calls themselves (open, dlopen, usleep) outside the guarded calls is in the model only as loss of the thread |
| C91 | Proc | `Pt`: the same machine with the four comparisons of pthread.c (555, 584, 781, 788) made on pthread_t values, for an arbitrary assignment `pt` of values to threads; `OnePt`: threads that exist at the same time have different ones. `C91_compare_partial`: at every comparison the values are equal exactly if the record is the caller's; so the machine has the same executions as `Proc` (`C91_same_partial`) and its theorems carry over (`C91_callbacks_partial`: C13, C14, C18). Proof: until the exit cleanup the thread of every listed record is alive (`listed_inv`), and the list is frozen afterwards (`winner_pt`); a child that is made during the exit cleanup gets no threads on its list (`late_list`). Conditions: `Clean`, threads do not end a second time, before their start routine or with monitor_block_shootdown in effect; each of the last three is needed (`C91_twice`, `C91_early`, `C91_blocked`): the record of a thread that is gone stays on the list, and a new thread with its pthread_t that ends the process takes that record for its own (pthread.c:584-585), so fini-thread is called with the data of the thread that is gone, or not at all, and never for the new thread. Calls that go on in a child of a fork inside them are left out (`OwnCalls`), and broadcasts during the exit cleanup: there the record of a thread that ended after it is skipped by a caller with its pthread_t, where `Proc` would signal the thread that is gone |
| C92 | Proc | what the threads ask for (end of main, pthread_exit, end of the last thread, calls) is followed beside the state (`ReachWish`); each frame owes the callbacks and the end of its call (`due`), counted against the requests (`cause_inv`). All executions: exit callbacks with a reason at most as often as the thread asked for an exit with this reason (`C92_reasons`), ends of the process at most as often as just this end was asked for (`C92_ends`), no request no callbacks (`C92_none`). pthread_exit counts in the initial thread only: `Clean` executions (`C92_initial_partial`). The converse is false: an exit inside the C library (err, errx, MONITOR_ERROR) ends the process without exit callbacks (`C92_err`), and pthread_exit in the initial thread delivers them while the other threads go on (`C92_goes_on`), against the comment in pthread.c:1179-1181 |

`Script` leaves out: options of the shell's own `exec` (a command name beginning with `-` after `--`),
the trailing newlines `pwd` in backquotes drops, and IFS changed by the environment.

`Sig` leaves out: sigsuspend, pselect, sigblock and the other calls the library does not
intercept; calls are atomic (interleaved in `SigC`); errno values other than EINTR (see `Err`).

`Proc` leaves out: weak memory; reuse of pthread_t values (see `Pt`, C91); failures of
pthread_setcancelstate (its successful calls are in `Cancel`, C90); the one-time
lookup of real functions (see `Dl`, `Names`).  Failures of pthread_setspecific, pthread_key_create,
sigaction and dlsym end in MONITOR_ERROR, which calls errx: an `interrupt` at that place, and a call
of `err` (in statically linked programs: of `exit`, since --wrap also applies to libc.a).
pthread_atfork handlers are `interrupt`s at the frame of the real fork, in the child
at its first frame, before its thread list is reset (calls of the library from there are outside `Clean`).
Histories record events latest first; the history of a
child begins with its parent's, `own` is the part since the process was made.

Every `_partial` theorem about `Proc` is about the executions that satisfy a decidable
predicate on (state, label) (`Clean`, `QuietFork`, `QuietStart`, `QuietInit`, `QuietLib`, `CalmFork`, `CalmExit`, ...);
the predicate excludes only the situations of the witnesses that stand beside the theorem.

## Wrong versions of the model

`seeded/LOG.jsonl` has one line per wrong version that was tried, by hand or generated. A line with an
empty `failed` list is one for which nothing failed; its note says why the claim stays true, which other
module is responsible, or that it was a gap, and which theorem was added. Where the failing lemma is one
that merely describes the steps, or one that comes before the theorem in question, the note says so: such a
line is weaker evidence. Not all modules were treated by generated edits (not: Proc, AttrC, SysC, Lock,
Sig, Start, Term, Wm).
