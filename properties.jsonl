{"id": "C01", "title": "fini-process at most once", "statement": "Within one process the client's monitor_fini_process callback is started at most once, however many threads call exit, _exit, _Exit, exec*, pthread_exit in main, return from main or die from a fatal signal at the same time, and however often those functions are re-entered from inside callbacks, signal handlers or atexit handlers.", "quantifier": "every reachable execution: any number of threads, any interleaving, any nesting, any fork depth", "why_tests_cant": "A test drives a handful of schedules; the claim is over every interleaving of arbitrarily many threads and every nesting of calls made from inside callbacks.", "anchors": ["src/main.c:monitor_end_process_fcn", "src/main.c:exit", "src/main.c:_exit", "src/fork.c:execv", "src/signal.c:monitor_signal_handler"]}
{"id": "C02", "title": "exit callbacks are ordered", "statement": "monitor_begin_process_exit is started at most once per process; monitor_fini_process is started only after monitor_begin_process_exit has returned, in the same thread and with the same `how` argument.", "quantifier": "every reachable execution", "why_tests_cant": "A test drives a handful of schedules; the claim is over every interleaving of arbitrarily many threads and every nesting of calls made from inside callbacks.", "anchors": ["src/main.c:monitor_end_process_fcn", "src/pthread.c:monitor_thread_shootdown"]}
{"id": "C03", "title": "losers of the exit race wait for fini-process", "statement": "A thread that is not the one delivering the exit callbacks does not reach the real exit, _exit, exec or fatal raise before monitor_fini_process has returned, unless the delivering thread itself re-entered an exit function from inside one of its exit callbacks.", "quantifier": "every reachable execution", "why_tests_cant": "A test drives a handful of schedules; the claim is over every interleaving of arbitrarily many threads and every nesting of calls made from inside callbacks.", "anchors": ["src/main.c:monitor_end_process_fcn"]}
{"id": "C04", "title": "init-process at most once per process", "statement": "monitor_init_process is started at most once per process, whichever of main, monitor_initialize, pthread_create and the fork child path get there first or concurrently.", "quantifier": "every reachable execution, every fork depth", "why_tests_cant": "A test drives a handful of schedules; the claim is over every interleaving of arbitrarily many threads and every nesting of calls made from inside callbacks.", "anchors": ["src/main.c:monitor_begin_process_fcn", "src/main.c:monitor_initialize", "src/pthread.c:pthread_create", "src/fork.c:monitor_fork"]}
{"id": "C05", "title": "init-process precedes thread callbacks", "statement": "In a process started normally or by fork/vfork (not monitor_real_fork), no monitor_init_thread_support, monitor_thread_pre_create, monitor_init_thread or application start routine begins before monitor_init_process was started.", "quantifier": "every reachable execution in which threads are created with pthread_create", "why_tests_cant": "A test drives a handful of schedules; the claim is over every interleaving of arbitrarily many threads and every nesting of calls made from inside callbacks.", "anchors": ["src/main.c:monitor_begin_process_fcn", "src/pthread.c:pthread_create", "src/pthread.c:monitor_begin_thread"]}
{"id": "C06", "title": "process user data round trip", "statement": "The data pointer monitor_fini_process receives is the value monitor_init_process returned in this process.", "quantifier": "every reachable execution", "why_tests_cant": "A test drives a handful of schedules; the claim is over every interleaving of arbitrarily many threads and every nesting of calls made from inside callbacks.", "anchors": ["src/main.c:monitor_begin_process_fcn", "src/main.c:monitor_end_process_fcn", "src/pthread.c:monitor_reset_thread_list"]}
{"id": "C07", "title": "library callbacks once", "statement": "monitor_init_library is delivered at most once and monitor_fini_library at most once per process image.", "quantifier": "every sequence of calls, including calls made from inside the callbacks", "why_tests_cant": "Re-entrancy from inside a callback and fork children are not exercised.", "anchors": ["src/main.c:monitor_begin_library_fcn", "src/main.c:monitor_end_library_fcn", "src/main.c:_exit"]}
{"id": "C08", "title": "fork child starts a fresh process life cycle", "statement": "A child created by fork/vfork gets monitor_init_process with the value pre_fork returned before control returns to the application, and when it later exits it gets its own exit callbacks and is not blocked by exit progress made by the parent.", "quantifier": "every parent state at the moment of fork, including a parent that is itself exiting in another thread", "why_tests_cant": "Needs a fork at an arbitrary point of an arbitrary concurrent execution.", "anchors": ["src/fork.c:monitor_fork", "src/main.c:monitor_begin_process_fcn", "src/main.c:monitor_end_process_fcn", "src/pthread.c:monitor_reset_thread_list"]}
{"id": "C09", "title": "thread numbers are unique", "statement": "The thread numbers passed to monitor_init_thread in one process are pairwise distinct, positive and assigned in increasing order; 0 is only ever reported for the main thread.", "quantifier": "every reachable execution, unbounded number of threads and thread-node reuse", "why_tests_cant": "A test drives a handful of schedules; the claim is over every interleaving of arbitrarily many threads and every nesting of calls made from inside callbacks.", "anchors": ["src/pthread.c:monitor_link_thread_node", "src/pthread.c:monitor_get_thread_num"]}
{"id": "C10", "title": "threads never share monitor state", "statement": "Two live threads never own the same thread record, so the user data and number of one thread are never those of another; a record is never simultaneously in use and available for reuse.", "quantifier": "every reachable execution, unbounded create/exit churn", "why_tests_cant": "A test drives a handful of schedules; the claim is over every interleaving of arbitrarily many threads and every nesting of calls made from inside callbacks.", "anchors": ["src/pthread.c:monitor_make_thread_node", "src/pthread.c:monitor_unlink_thread_node", "src/pthread.c:monitor_reset_thread_list", "src/pthread.c:monitor_pthread_cleanup_routine"]}
{"id": "C11", "title": "init-thread before start routine", "statement": "An application start routine runs at most once per pthread_create, with the argument that was passed, and only after monitor_init_thread for that thread has returned; monitor_init_thread receives the value monitor_thread_pre_create returned for that creation.", "quantifier": "every reachable execution", "why_tests_cant": "A test drives a handful of schedules; the claim is over every interleaving of arbitrarily many threads and every nesting of calls made from inside callbacks.", "anchors": ["src/pthread.c:monitor_begin_thread", "src/pthread.c:pthread_create"]}
{"id": "C12", "title": "fini-thread at most once", "statement": "monitor_fini_thread is started at most once per thread.", "quantifier": "every reachable execution, including a shootdown signal at any instruction", "why_tests_cant": "The offending window is a few instructions wide.", "anchors": ["src/pthread.c:monitor_pthread_cleanup_routine", "src/pthread.c:monitor_shootdown_handler", "src/pthread.c:monitor_thread_shootdown", "src/pthread.c:monitor_sigwait_helper"]}
{"id": "C13", "title": "fini-thread only after init-thread, with its data", "statement": "monitor_fini_thread is started for a created thread only after monitor_init_thread for it returned, and receives the value that monitor_init_thread returned.", "quantifier": "every reachable execution", "why_tests_cant": "A test drives a handful of schedules; the claim is over every interleaving of arbitrarily many threads and every nesting of calls made from inside callbacks.", "anchors": ["src/pthread.c:monitor_begin_thread", "src/pthread.c:monitor_pthread_cleanup_routine", "src/pthread.c:monitor_shootdown_handler"]}
{"id": "C14", "title": "all threads are finished before fini-process", "statement": "If a thread's start routine had begun when the process began its thread shootdown, then its monitor_fini_thread callback has returned before monitor_fini_process starts, unless the shootdown gave up after its timeout.", "quantifier": "every reachable execution", "why_tests_cant": "A test drives a handful of schedules; the claim is over every interleaving of arbitrarily many threads and every nesting of calls made from inside callbacks.", "anchors": ["src/pthread.c:monitor_thread_shootdown", "src/pthread.c:monitor_shootdown_handler", "src/pthread.c:monitor_pthread_cleanup_routine"]}
{"id": "C15", "title": "no application thread starts after exit cleanup began", "statement": "A thread that registers itself after the exit cleanup started neither gets monitor_init_thread nor runs the application's start routine.", "quantifier": "every reachable execution", "why_tests_cant": "A test drives a handful of schedules; the claim is over every interleaving of arbitrarily many threads and every nesting of calls made from inside callbacks.", "anchors": ["src/pthread.c:monitor_link_thread_node", "src/pthread.c:monitor_begin_thread"]}
{"id": "C16", "title": "the thread list is frozen while it is walked at exit", "statement": "From the moment exit cleanup starts until the end of the process no other thread adds or removes an element of the list of threads.", "quantifier": "every reachable execution", "why_tests_cant": "A test drives a handful of schedules; the claim is over every interleaving of arbitrarily many threads and every nesting of calls made from inside callbacks.", "anchors": ["src/pthread.c:monitor_thread_shootdown", "src/pthread.c:monitor_link_thread_node", "src/pthread.c:monitor_unlink_thread_node"]}
{"id": "C17", "title": "ignored threads are invisible", "statement": "A thread created while its creator had called monitor_disable_new_threads, or for which monitor_thread_pre_create returned MONITOR_IGNORE_NEW_THREAD, or by an ignored thread, never gets monitor_init_thread or monitor_fini_thread callbacks, and its start routine still runs.", "quantifier": "every reachable execution", "why_tests_cant": "A test drives a handful of schedules; the claim is over every interleaving of arbitrarily many threads and every nesting of calls made from inside callbacks.", "anchors": ["src/pthread.c:pthread_create", "src/pthread.c:monitor_disable_new_threads", "src/pthread.c:monitor_pthread_cleanup_routine"]}
{"id": "C18", "title": "broadcast reaches every other live thread once and never blocks", "statement": "monitor_broadcast_signal never waits for the list lock, reports failure when the lock is taken, never signals the caller, and otherwise sends the signal to each other running registered thread exactly once.", "quantifier": "every reachable state, every list length", "why_tests_cant": "A test drives a handful of schedules; the claim is over every interleaving of arbitrarily many threads and every nesting of calls made from inside callbacks.", "anchors": ["src/pthread.c:monitor_broadcast_signal", "src/spinlock.h:spinlock_trylock"]}
{"id": "C19", "title": "shootdown makes progress", "statement": "The exit shootdown loop returns: it stops as soon as every started thread finished, it never gives up earlier than ten seconds after the last thread that began finishing, and it cannot go on forever once the finishing callbacks terminate.", "quantifier": "every number of threads, every sequence of observations and clock readings", "why_tests_cant": "Timeouts and stragglers are not reproducible.", "anchors": ["src/pthread.c:monitor_thread_shootdown"]}
{"id": "C20", "title": "new-thread info is only available inside pthread_create", "statement": "monitor_get_new_thread_info succeeds exactly for calls made between entry to and return from pthread_create in the calling thread, and then reports that creation's start routine.", "quantifier": "every sequence of thread creations, including ignored and nested ones", "why_tests_cant": "Tests only query inside the callbacks of a successful creation.", "anchors": ["src/pthread.c:monitor_get_new_thread_info", "src/pthread.c:pthread_create"]}
{"id": "C21", "title": "pthread_create leaves the application's attributes alone", "statement": "After pthread_create returns, the attribute object the application passed has the stack size it had before, attributes created internally have been destroyed exactly once, and the real pthread_create got the client's stack size whenever it could be set and the application's otherwise.", "quantifier": "every outcome of the attribute calls", "why_tests_cant": "The failure branches cannot be provoked.", "anchors": ["src/pthread.c:monitor_adjust_stack_size", "src/pthread.c:pthread_create"]}
{"id": "C22", "title": "pre-create and post-create are paired", "statement": "Every pthread_create that is not ignored delivers monitor_thread_pre_create once before and monitor_thread_post_create once after creating the thread, and post-create receives the value pre-create returned.", "quantifier": "every reachable execution", "why_tests_cant": "A test drives a handful of schedules; the claim is over every interleaving of arbitrarily many threads and every nesting of calls made from inside callbacks.", "anchors": ["src/pthread.c:pthread_create"]}
{"id": "C23", "title": "the list lock is mutually exclusive", "statement": "At most one thread at a time is inside a section protected by the thread-list lock, and while the lock is free nobody is inside.", "quantifier": "every reachable execution, any number of threads", "why_tests_cant": "A test drives a handful of schedules; the claim is over every interleaving of arbitrarily many threads and every nesting of calls made from inside callbacks.", "anchors": ["src/spinlock.h:spinlock_lock", "src/spinlock.h:spinlock_trylock", "src/spinlock.h:spinlock_unlock", "src/atomic.h:compare_and_swap"]}
{"id": "C24", "title": "linked-list macros implement a list", "statement": "Inserting at the head and removing an element through the raw next/prev pointers yields exactly the list with the element consed on or erased, keeps every other element and every other disjoint list, and touches no memory outside the list.", "quantifier": "every heap, every list length, every element position", "why_tests_cant": "The input space is unbounded; tests sample it.", "anchors": ["src/queue.h:LIST_INSERT_HEAD", "src/queue.h:LIST_REMOVE", "src/pthread.c:monitor_link_thread_node"]}
{"id": "C25", "title": "application cannot block client signals", "statement": "No call of sigprocmask or pthread_sigmask by the application changes whether a signal the client asked to keep open is blocked.", "quantifier": "every signal set, every `how`, every current mask, every history of calls", "why_tests_cant": "The input space is unbounded; tests sample it.", "anchors": ["src/signal.c:monitor_remove_client_signals", "src/signal.c:sigprocmask", "src/pthread.c:pthread_sigmask"]}
{"id": "C26", "title": "sigaction is virtualised", "statement": "For every signal, the old action the application gets from sigaction or signal is the action it last installed itself (or the initial one), independent of what the client or the library installed in the kernel, and error cases leave everything unchanged.", "quantifier": "every history of sigaction/signal/monitor_sigaction calls", "why_tests_cant": "The input space is unbounded; tests sample it.", "anchors": ["src/signal.c:monitor_appl_sigaction", "src/signal.c:sigaction", "src/signal.c:signal", "src/signal.c:monitor_sigaction"]}
{"id": "C27", "title": "kernel-level handlers stay under control", "statement": "For every signal the library manages, after every history of calls the kernel-level action is the library's handler with SA_SIGINFO and SA_RESTART set and SA_RESETHAND and SA_ONSTACK clear, its mask contains the shootdown signal and none of the client's other keep-open signals known when it was installed.", "quantifier": "every history of calls, every flag word", "why_tests_cant": "The input space is unbounded; tests sample it.", "anchors": ["src/signal.c:monitor_adjust_saflags", "src/signal.c:monitor_adjust_samask", "src/signal.c:monitor_signal_init"]}
{"id": "C28", "title": "signal dispatch", "statement": "On delivery the client's handler runs first; only if it declines is the application's disposition emulated: nothing if ignored, its handler in the form it was installed with, or the default action, where signals whose default is to be ignored have no effect, stop signals stop the process and all others end the process after the exit callbacks.", "quantifier": "every signal number, every disposition, every client decision", "why_tests_cant": "The input space is unbounded; tests sample it.", "anchors": ["src/signal.c:monitor_signal_handler"]}
{"id": "C29", "title": "one-shot handlers and ignored-across-exec", "statement": "Application-visible disposition semantics are preserved: a handler installed with SA_RESETHAND runs at most once, and a signal the application ignores is still ignored in a program it execs.", "quantifier": "every history", "why_tests_cant": "Needs the kernel's exec and delivery rules.", "anchors": ["src/signal.c:monitor_adjust_saflags", "src/signal.c:monitor_appl_sigaction", "src/fork.c:execve"]}
{"id": "C30", "title": "shootdown signal choice", "statement": "The shootdown signal is always a valid catchable signal number, never SIGKILL, SIGSTOP or a stop signal, never a signal the client keeps open unless configured explicitly or nothing else is left, and choosing it stays inside its candidate table.", "quantifier": "every environment value, every client signal set, every realtime range", "why_tests_cant": "Depends on the environment and platform constants.", "anchors": ["src/signal.c:monitor_choose_shootdown_early", "src/signal.c:monitor_shootdown_signal"]}
{"id": "C31", "title": "sigwait family", "statement": "sigwait, sigwaitinfo and sigtimedwait return to the application only a signal from the set it asked for that the client did not consume, or an error other than interruption; every wakeup by a client or shootdown signal is swallowed and the wait restarted.", "quantifier": "every stream of kernel wakeups, every set", "why_tests_cant": "The input space is unbounded; tests sample it.", "anchors": ["src/pthread.c:monitor_sigwait_helper", "src/pthread.c:sigwait", "src/pthread.c:sigwaitinfo", "src/pthread.c:sigtimedwait"]}
{"id": "C32", "title": "environment copy", "statement": "The environment given to monitor_real_execve/monitor_real_system children is the original environment in order without LD_PRELOAD, NULL terminated, and building it never writes outside its buffer.", "quantifier": "every environment of any length", "why_tests_cant": "The input space is unbounded; tests sample it.", "anchors": ["src/fork.c:monitor_copy_environ"]}
{"id": "C33", "title": "variadic exec arguments", "statement": "execl, execlp and execle pass to the real exec exactly the argument strings given up to and including the terminating NULL (and the envp after it for execle), for any number of arguments, reading no argument beyond them and writing only inside allocated arrays.", "quantifier": "every argument list of any length", "why_tests_cant": "The input space is unbounded; tests sample it.", "anchors": ["src/fork.c:monitor_copy_va_args", "src/fork.c:execl", "src/fork.c:execlp", "src/fork.c:execle"]}
{"id": "C34", "title": "exec delivers fini-process iff the program looks executable", "statement": "An exec call delivers the exit callbacks exactly when the file it would run is executable: an explicit path for execv/execve, the first PATH match for execvp, with PATH searched the way execvp does.", "quantifier": "every file name, every PATH value, every file system", "why_tests_cant": "The input space is unbounded; tests sample it.", "anchors": ["src/fork.c:monitor_is_executable", "src/fork.c:execvp", "src/fork.c:execve"]}
{"id": "C35", "title": "system() restores signal state and pairs fork callbacks", "statement": "On every path system() leaves the SIGINT/SIGQUIT actions and the signal mask as it found them, delivers pre-fork and post-fork exactly once each, and returns the child's wait status, -1 on failure, and an availability flag for a NULL command.", "quantifier": "every outcome of fork, exec and wait including interruption", "why_tests_cant": "The input space is unbounded; tests sample it.", "anchors": ["src/fork.c:monitor_system", "src/fork.c:system", "src/fork.c:monitor_real_system"]}
{"id": "C36", "title": "fork callbacks are paired", "statement": "Every fork/vfork delivers monitor_pre_fork once before; then the parent (or the caller of a failed fork) gets monitor_post_fork once with the pid result and pre-fork's value, and the child instead gets monitor_init_process; monitor_real_fork delivers neither.", "quantifier": "every fork outcome, every nesting", "why_tests_cant": "A test drives a handful of schedules; the claim is over every interleaving of arbitrarily many threads and every nesting of calls made from inside callbacks.", "anchors": ["src/fork.c:monitor_fork", "src/main.c:monitor_real_fork"]}
{"id": "C37", "title": "MPI callbacks once per outermost call", "statement": "For every nesting of MPI/PMPI C and Fortran init and finalize wrappers the client callbacks surrounding initialisation and finalisation are delivered exactly once per outermost call, around it, and the nesting counters return to their previous value.", "quantifier": "every call tree of any depth and width", "why_tests_cant": "The input space is unbounded; tests sample it.", "anchors": ["src/mpi.c:monitor_mpi_init_count", "src/mpi.c:monitor_mpi_fini_count", "src/mpi_init_c.c", "src/mpi_final_c.c", "src/pmpi.c"]}
{"id": "C38", "title": "MPI size and rank are stable", "statement": "monitor_mpi_comm_size/rank report -1 until the first usable value is known and that same first value ever after; a value seen while MPI_Init is still running is not used; an explicit client setting is accepted once.", "quantifier": "every history of init, finalize, comm_size, comm_rank and client set calls", "why_tests_cant": "The input space is unbounded; tests sample it.", "anchors": ["src/mpi.c:monitor_set_size_rank", "src/mpi.c:monitor_set_mpi_size_rank", "src/mpi_comm_c.c", "src/mpi_comm_f0.c"]}
{"id": "C39", "title": "signal set printing stays in its buffer", "statement": "Printing a signal set, or a list of signal numbers, into a non-empty buffer of the stated size writes only inside that buffer, always leaves it NUL-terminated, and never fails for a buffer of MONITOR_SIG_BUF_SIZE bytes. (An empty buffer, or list members far beyond any signal number, are outside the promise: for those the code does write out of bounds.)", "quantifier": "every buffer size, every set, every list", "why_tests_cant": "The input space is unbounded; tests sample it.", "anchors": ["src/utils.c:monitor_sigset_string", "src/utils.c:monitor_signal_list_string"]}
{"id": "C40", "title": "signal set printing is faithful", "statement": "When it fits, the printed text names exactly the members of the set in increasing order with maximal runs compressed (so distinct sets print differently), and the return value is the number of members.", "quantifier": "every set", "why_tests_cant": "The input space is unbounded; tests sample it.", "anchors": ["src/utils.c:monitor_sigset_string", "src/utils.c:monitor_signal_list_string"]}
{"id": "C41", "title": "real-function lookup never finds the wrapper", "statement": "Looking up a wrapped function never yields the library's own wrapper: either the dynamic linker's next definition or the first definition in a library loaded after libmonitor; if there is none the process stops with an error instead of continuing.", "quantifier": "every set of loaded libraries and symbol tables", "why_tests_cant": "The input space is unbounded; tests sample it.", "anchors": ["src/common.c:monitor_dlsym", "src/common.c:monitor_dlsym_phdr_callback"]}
{"id": "C42", "title": "dlopen/dlclose callbacks bracket the call", "statement": "dlopen and dlclose return exactly what the real function returned, with one pre callback before and one post callback after it carrying the same path/flags/handle and result.", "quantifier": "every argument and result", "why_tests_cant": "Trivial per call, but must hold for every nesting of dlopen inside callbacks.", "anchors": ["src/dlopen.c:dlopen", "src/dlopen.c:dlclose"]}
{"id": "C43", "title": "start-function fences", "statement": "An address recognised as the bottom frame of the call stack in the narrow sense is also recognised in the wide sense, and code outside the fenced start functions is never recognised.", "quantifier": "every address, every fence placement", "why_tests_cant": "The input space is unbounded; tests sample it.", "anchors": ["src/main.c:monitor_in_main_start_func_wide", "src/pthread.c:monitor_in_start_func_wide"]}
{"id": "C44", "title": "monitor-run passes the command through", "statement": "monitor-run runs exactly the command words after its options, in order and unchanged, and preloads the client libraries in command-line order before libmonitor and any pre-existing LD_PRELOAD.", "quantifier": "every command line", "why_tests_cant": "The input space is unbounded; tests sample it.", "anchors": ["src/monitor-run.in"]}
{"id": "C45", "title": "monitor-link passes the link line through", "statement": "monitor-link runs the link command with its arguments in order, inserts wrapper options only with libmonitor, and includes every client input exactly once in command-line order.", "quantifier": "every command line", "why_tests_cant": "The input space is unbounded; tests sample it.", "anchors": ["src/monitor-link.in"]}
{"id": "C46", "title": "concurrent system() calls restore the signal actions", "statement": "When several threads are inside system() at the same time, then after all of them have returned the SIGINT and SIGQUIT actions are what they were before the first one started.", "quantifier": "every number of threads, every interleaving", "why_tests_cant": "The input space is unbounded; a test exercises a few schedules.", "anchors": ["src/fork.c:monitor_system"]}
{"id": "C47", "title": "sigtimedwait does not wait longer than asked", "statement": "A call of sigtimedwait with timeout T returns after at most T, however many signals that are not for the application arrive meanwhile.", "quantifier": "every stream of kernel wakeups, every timeout", "why_tests_cant": "Needs a stream of swallowed signals of unbounded length timed within the timeout; a test with one interruption passes within its tolerance.", "anchors": ["src/pthread.c:1352-1381", "src/pthread.c:1237-1294"]}
{"id": "C48", "title": "Shootdown handler stays in place", "statement": "While a thread waits in the exit procedure for the other threads, the shootdown signal keeps reaching the library's shootdown handler whatever signal calls the application makes.", "quantifier": "every history of signal calls after the handler was installed", "why_tests_cant": "Depends on an application call racing with the exit procedure on a signal chosen at run time.", "anchors": ["src/pthread.c:533-542", "src/signal.c:809-862"]}
{"id": "C49", "title": "Handler flags take effect", "statement": "The flags the application passes to sigaction have their documented effect: system calls are interrupted exactly when SA_RESTART is absent, the handler runs on the alternate stack exactly when SA_ONSTACK is given, and all other flags are passed on.", "quantifier": "every history, every signal, every flag word", "why_tests_cant": "The effect of a flag shows only in a blocking call or on stack overflow, for 2^32 flag words.", "anchors": ["src/signal.c:64-65", "src/signal.c:720-724", "src/signal.c:809-862"]}
{"id": "C50", "title": "Ignoring SIGCHLD reaps children", "statement": "An application that ignores SIGCHLD explicitly, or sets SA_NOCLDWAIT, gets its terminated children reaped by the kernel.", "quantifier": "every history before the call", "why_tests_cant": "Shows only as leftover zombies and a different result of wait after the children ended.", "anchors": ["src/signal.c:809-862", "src/signal.c:196-276"]}
{"id": "C51", "title": "Lock progress", "statement": "Whenever no thread is inside a section protected by the thread-list lock, a thread that wants the lock and runs without interference gets it after finitely many steps, also in a forked child and also inside a signal handler.", "quantifier": "every interleaving of lock, trylock and unlock by any number of threads, signal handlers and forks", "why_tests_cant": "Needs a fork or a signal at the few instructions while another thread, or the interrupted thread itself, holds the lock.", "anchors": ["src/spinlock.h:58-99", "src/pthread.c:323-359", "src/pthread.c:529"]}
{"id": "C52", "title": "Application stack respected", "statement": "If the application gives the thread its own stack with pthread_attr_setstack, the thread's stack lies inside that memory.", "quantifier": "every attribute, every stack and every size the client asks for", "why_tests_cant": "Overrunning the supplied memory only shows if the thread uses the top of its stack.", "anchors": ["src/pthread.c:1012-1053", "src/pthread.c:1150-1161"]}
{"id": "C53", "title": "Narrow recognition only while the application runs", "statement": "The return address of a call that the start function makes before it enters the application (initialisation, init-process and at-main callbacks) is not recognised as the call of the application.", "quantifier": "every code the compiler may generate between the labels", "why_tests_cant": "Depends on instruction placement that one build on one machine does not vary.", "anchors": ["src/main.c:508-535", "src/main.c:396-401", "src/pthread.c:737-743"]}
{"id": "C54", "title": "Real functions looked up before use", "statement": "The library never calls through a function pointer it has not filled in, whichever of its functions is entered first; and once a second thread exists, no thread is still running one of the run-once initialisations (which are not locked).", "quantifier": "every order, nesting and interleaving of entries by application, client, constructors, signal handlers and threads, with forks, long jumps and thread exits", "why_tests_cant": "Depends on which function is the first entry and on what arrives while an initialisation runs; there are dozens of entry points and unbounded nestings.", "anchors": ["src/common.h:127-131", "src/common.h:161-164", "src/main.c:189-219", "src/fork.c:121-141", "src/pthread.c:240-273", "src/signal.c:282-294", "src/dlopen.c:79-90", "src/pthread.c:1058-1110"]}
{"id": "C55", "title": "Signals only to live threads", "statement": "Every thread handed to pthread_kill (by the exit cleanup and by monitor_broadcast_signal) is a thread of this process that has not ended; in particular it is never an unset thread identity.", "quantifier": "every interleaving of creations, terminations, cancellations, broadcasts, exits, forks and signal handlers over any number of threads", "why_tests_cant": "Signalling an ended thread is undefined behaviour that mostly goes unnoticed, and the window between testing a record and signalling its thread is a few instructions.", "anchors": ["src/pthread.c:575-600", "src/pthread.c:765-795", "src/pthread.c:620-690", "src/pthread.c:325-360"]}
{"id": "C56", "title": "MPI callbacks in programs with several threads", "statement": "While other threads and signal handlers run, use MPI and query ranks, each thread's initialisation and finalisation calls get the surrounding client callbacks exactly for its outermost calls, and the counters are zero whenever no call is open.", "quantifier": "every interleaving of wrapper calls, handlers and cancellations over any number of threads and any nesting", "why_tests_cant": "The counters are updated without synchronisation; a lost update needs two threads within a few instructions.", "anchors": ["src/mpi.c:63-77", "src/mpi_init_c.c:22-41", "src/mpi_final_c.c:22-42", "src/pmpi.c:92-277"]}
{"id": "C57", "title": "MPI size and rank in programs with several threads", "statement": "The size and rank that the client is told are a pair that one successful query (after some initialisation began) or one client setting produced; once known they never change, and the library does not crash on a query that fails.", "quantifier": "every interleaving of queries, settings, handlers and cancellations over any number of threads, every outcome of the real functions", "why_tests_cant": "The pair is stored in two steps guarded by an unsynchronised flag; failing queries are rare and their effect shows only in later reports.", "anchors": ["src/mpi.c:88-131", "src/mpi_comm_c.c:27-40", "src/pmpi.c:289-311"]}
{"id": "C58", "title": "nobody waits for ever", "statement": "A thread that has to wait inside the library (for the lock of the thread list, for the thread that delivers the exit callbacks, or for fini-thread calls of other threads) waits for another thread that is still there, and following the threads so waited for one always arrives at a thread that can go on.", "quantifier": "every interleaving of any number of threads, signals, cancellations and forks", "why_tests_cant": "A deadlock needs several threads at particular instructions; a test that hangs once in a million runs is not noticed.", "anchors": ["src/main.c:295-345", "src/pthread.c:515-635", "src/pthread.c:365-440"]}
{"id": "C59", "title": "Signal actions in programs with several threads", "statement": "A signal is handled as the action says that the application set last: its handler is called with siginfo exactly if that action asked for it, it is ignored or defaulted exactly under an action that says so, and NULL is never called; sigaction returns the action that was set before; when no call is in progress the kernel has the flags and mask set last; the client's handler called is the one it registered last.", "quantifier": "every interleaving of sigaction, signal and monitor_sigaction calls of any number of threads with deliveries of the signal at any point", "why_tests_cant": "The entry of the signal is read and written field by field without a lock; a torn action needs a signal within a few instructions.", "anchors": ["src/signal.c:192-276", "src/signal.c:738-772", "src/signal.c:800-886"]}
{"id": "C60", "title": "Program arguments and exit status", "statement": "The application's main is called at most once, by the main thread, with exactly the arguments the process was started with, whatever the client does to the count. The real exit function is called with the status that the same thread passed to exit, _exit or _Exit or that main returned. The client's init-process, the Fortran init-mpi and the static wrap-main get the argument vector of main, with its count as the client last left it.", "quantifier": "every interleaving of main, threads created before or during it, forks, signal handlers and changes of the count by the client", "why_tests_cant": "The arguments are kept in three global variables that are stored one after the other; a torn pair needs a thread that enters the library within these instructions.", "anchors": ["src/main.c:141-143", "src/main.c:263-286", "src/main.c:356-368", "src/main.c:503-536", "src/main.c:590-633", "src/mpi_init_f0.c:37-38"]}
{"id": "C61", "title": "MPI calls are passed through", "statement": "Each call of one of the 32 wrapped MPI and PMPI functions (init, init_thread, finalize, comm_rank; C and three Fortran spellings) calls, once, the real function found under its own name, in the same thread and with the caller's arguments, and returns what that returned. comm_rank first calls the comm_size of the same interface with the same communicator; init-mpi of a C wrapper is called after the real function and with the caller's pointers. No call goes through a pointer that is not set or that was looked up under another name.", "quantifier": "every interleaving of calls by any number of threads, nested to any depth through real functions, callbacks and handlers, with calls left by cancellation or long jump, and forks", "why_tests_cant": "There are 32 near copies with 40 static pointers; a pointer shared between two of them shows only for particular orders of first calls in programs that mix interfaces.", "anchors": ["src/pmpi.c:51-335", "src/mpi_init_c.c:21-41", "src/mpi_init_f1.c:21-41", "src/mpi_init_thread_c.c:21-42", "src/mpi_init_thread_f2.c:21-41", "src/mpi_final_c.c:21-42", "src/mpi_final_f1.c:21-40", "src/mpi_comm_c.c:27-40", "src/mpi_comm_f0.c:26-37", "src/common.h:127-154"]}
{"id": "C62", "title": "Stack bottom and start routine of the calling thread", "statement": "monitor_stack_bottom and monitor_get_addr_thread_start report the calling thread's own values: a created thread, from the moment it is registered until its cleanup routine is over, gets an address in the bottom frame of its own stack and the start routine of the pthread_create call that made it; an ignored thread gets NULL for both; the initial thread, in a child the thread that called fork, gets its own stack bottom, at the latest when monitor_at_main has been called, and no start routine.", "quantifier": "every interleaving of any number of threads, forks in any of them, reuse of thread records, exits and signals", "why_tests_cant": "The values live in records that are cleared and reused by other threads and that change owner in a fork; a stale value shows only after particular histories of creation, exit and fork.", "anchors": ["src/pthread.c:222-238", "src/pthread.c:335-346", "src/pthread.c:394", "src/pthread.c:430-435", "src/pthread.c:683-718", "src/pthread.c:970-971", "src/main.c:515-516"]}
{"id": "C63", "title": "The lists of thread records are never corrupted", "statement": "Every record that is unlinked from the list of threads is on it, and every record that is linked is not on it yet; no record is twice on the list of threads or the free list, or on both, or on a list while the array it comes from still counts it as unused. The initial thread's record is put on the list at most once.", "quantifier": "every interleaving of creations and ends of any number of threads, reuse of records, exit calls, shootdown, signals, and forks in any thread", "why_tests_cant": "LIST_REMOVE and LIST_INSERT_HEAD on a record in the wrong state write through stale links without any check; the damage shows, if at all, in a later walk by another thread, and only after particular histories.", "anchors": ["src/pthread.c:294-296", "src/pthread.c:352-354", "src/pthread.c:373-392", "src/pthread.c:406-420", "src/pthread.c:422-439", "src/pthread.c:553-560"]}
{"id": "C64", "title": "The linked lists in memory hold exactly the registered and the free records", "statement": "Following the links from monitor_thread_list visits exactly the registered threads' records, in order of registration, and from monitor_free_list exactly the released ones; the list macros and the clearing of records never use memory outside the allocated records or through NULL. While a thread goes over the list, LIST_NEXT of the record it is at is always the next record of the list as it stands.", "quantifier": "every interleaving of creations and ends of any number of threads (any number of arrays of records), exit, shootdown, broadcasts, signals and forks, from any initial contents of the links", "why_tests_cant": "A link that is overwritten or a record that is cleared while it is on a list damages a later walk of another thread only for particular histories and interleavings.", "anchors": ["src/pthread.c:191-192", "src/pthread.c:294-295", "src/pthread.c:334-353", "src/pthread.c:372-394", "src/pthread.c:411-416", "src/pthread.c:430-436", "src/pthread.c:553-560", "src/pthread.c:580-582", "src/pthread.c:777-779", "src/queue.h:342-375", "src/pthread_h.h:55"]}
{"id": "C65", "title": "The error of a failing call reaches the application", "statement": "If an overridden libc function fails, the application sees the result and the errno (for dlopen: dlerror) of the real call that failed, not one left behind by callbacks, messages or other calls that the override makes: fork, vfork, exec*, system, sigaction, signal, sigprocmask, sigwait, sigwaitinfo, sigtimedwait, dlopen, dlclose. The library's signal handler leaves errno as it was if the handlers of client and application do.", "quantifier": "all results and all effects on errno of the real functions, callbacks and messages, any number of restarts of waitpid and sigwaitinfo, debugging on or off", "why_tests_cant": "errno is overwritten only when a later call inside the override happens to fail or to touch errno, and only failing calls show it.", "anchors": ["src/fork.c:306-333", "src/fork.c:355-435", "src/fork.c:527-602", "src/fork.c:632-647", "src/pthread.c:1237-1381", "src/signal.c:195-275", "src/signal.c:809-908", "src/dlopen.c:118-146", "src/common.h:89-101"]}
{"id": "C66", "title": "The process dies by the signal that ended it, after its exit callbacks", "statement": "A signal with default action kills the process (wait status: exactly this signal) only after monitor_end_process_fcn was called for it, or after the client called monitor_real_abort; once the library has restored the default action, its raise (for SIGSEGV, SIGBUS, SIGILL the repeated fault) does kill the process with exactly this signal, whatever was blocked and whatever happened in between; monitor_real_abort kills with SIGABRT and never returns to its caller. Signals whose default action is harmless or stops the process neither kill nor give exit callbacks.", "quantifier": "all executions of any number of threads, all signals, masks and actions, handlers nested to any depth, callbacks and handlers that call sigaction, sigprocmask and monitor_real_abort at any point", "why_tests_cant": "Depends on what other threads do between the installation of the default action and raise, and on the mask at the moment of the signal.", "anchors": ["src/signal.c:195-275", "src/signal.c:100-127", "src/signal.c:775-797", "src/signal.c:809-870", "src/common.h:108-113"]}
{"id": "C67", "title": "The lock orders memory", "statement": "On a machine that delays stores, at most one thread is inside the spinlock, and every load inside the lock of data that is used inside only gets the value stored last by whatever thread: spinlock_unlock lets no store made inside be overtaken by the store that frees the lock.", "quantifier": "all executions of any number of threads on machines with store buffers: x86 (in order), PowerPC (any order, lwsync in unlock), Arm (any order, GNU builtin); any protected locations, values, use of lock and trylock", "why_tests_cant": "Reordering shows only on some machines, within nanoseconds, and a test on x86 cannot show it at all.", "anchors": ["src/spinlock.h:58-99", "src/atomic.h:51-170", "src/pthread.c:170-190"]}
{"id": "C68", "title": "Flags publish what was stored before them", "statement": "A thread that sees a flag another thread has set (tn_fini_done, monitor_fini_process_done, monitor_thread_support_done, ...) also sees what that thread stored before it set the flag, such as what a client's callback has recorded; and no value appears that was not stored.", "quantifier": "all executions of any number of threads on machines with store buffers; any locations that one thread writes", "why_tests_cant": "Reordering shows only on some machines and for nanoseconds.", "anchors": ["src/main.c:145-148", "src/main.c:300-345", "src/pthread.c:194-203", "src/pthread.c:440-475", "src/pthread.c:575-620", "src/pthread_h.h:60-75"]}
{"id": "C69", "title": "Without the thread module, an unthreaded program sees no difference", "statement": "A statically linked program that makes no threads behaves the same whether or not the thread module (pthread.c) is linked in: with the weak definitions of main.c the same callbacks are made with the same arguments in the same order, the client's queries get the same answers, and the same requests reach the system, also in forked children.", "quantifier": "all executions of one thread with signal handlers, forks and re-entrant callbacks", "why_tests_cant": "Two builds would have to be compared on every interleaving of callbacks, signal handlers and forks.", "anchors": ["src/main.c:674-783", "src/pthread.c:222-238", "src/pthread.c:323-359", "src/pthread.c:512-525", "src/pthread.c:645-677"]}
{"id": "C70", "title": "Exit callbacks in threaded programs without the thread module", "statement": "In a statically linked program without the thread module that nevertheless makes threads, begin-process-exit and fini-process are called at most once, in this order and by one thread, and no thread ends the process before fini-process has returned.", "quantifier": "all interleavings of any number of threads", "why_tests_cant": "The race of two exiting threads is rare.", "anchors": ["src/main.c:300-345", "src/main.c:756-783"]}
{"id": "C71", "title": "Every thread that has ended was finished", "statement": "A created thread that entered its start routine and has ended, in a process that has not begun to exit, has had fini-thread called in it, with the value that init-thread returned, and the callback has returned; and a thread that is still in its start routine has not.", "quantifier": "all interleavings of any number of threads, whether they return, call pthread_exit or are cancelled, also in signal handlers", "why_tests_cant": "Ends of threads by cancellation and exit race with the cleanup routine in unboundedly many ways.", "anchors": ["src/pthread.c:903-940", "src/pthread.c:942-998"]}
{"id": "C72", "title": "Exit ends the process, after fini-process", "statement": "Once a thread has called exit or _exit, main has returned, or a deadly signal is handled, the process comes to its end; and at the end fini-process has been called and has returned, unless the process was ended around the library's exit functions. Once begin-process-exit has been called, fini-process is called, too, and returns.", "quantifier": "all fair interleavings of any number of threads that exit, end, create threads, broadcast and run fini-thread meanwhile, and all outcomes of external calls", "why_tests_cant": "A hang or a lost callback would need a particular interleaving of waiting threads, and absence of hangs is about infinite executions.", "anchors": ["src/main.c:300-345", "src/main.c:585-635", "src/pthread.c:508-640", "src/signal.c:240-270"]}
{"id": "C73", "title": "Program start is passed through, and the address of main is right", "statement": "The library's __libc_start_main calls libc's once for each call, with the parameters it was given and monitor_main in place of main, after monitor_start_main_init; libc then comes to the application's main through monitor_main, once, with the arguments that libc passes. monitor_get_addr_main gives the application's main from monitor_start_main_init on, and before that NULL or the same.", "quantifier": "both signatures of __libc_start_main and the static case, all parameters, all interleavings with constructors, threads and handlers that enter the library, and children", "why_tests_cant": "The variants are chosen at build time; the variables are read by other threads while the start function stores to them.", "anchors": ["src/main.c:82-113", "src/main.c:480-488", "src/main.c:500-583", "src/main.c:190-206"]}
{"id": "C74", "title": "The lock goes on being given", "statement": "Under a scheduler that lets every thread inside the lock functions and inside the lock go on, whenever a thread waits for the thread-list lock some thread gets it, however the others lock, try and unlock; and the thread that waits gets it, too.", "quantifier": "all endless fair executions of any number of threads, both implementations of compare-and-swap", "why_tests_cant": "About endless executions: no finite run shows that a thread waits for ever or that nobody is ever served.", "anchors": ["src/spinlock.h:58-99", "src/atomic.h:51-180"]}
{"id": "C75", "title": "Thread support is announced once, before all threads", "statement": "monitor_init_thread_support is called at most once, and in every process that creates a monitored thread it is called, and has returned, before monitor_thread_pre_create or monitor_init_thread is called for the first time.", "quantifier": "all interleavings of threads, signals, forks, callbacks that call the library, and the processes they make", "why_tests_cant": "The test of the flag, its assignment and the call are separate steps: a handler, a nested call or a fork has to hit the gap between them.", "anchors": ["src/pthread.c:1110-1118", "src/pthread.c:1127", "src/pthread.c:324-359", "src/pthread.c:983"]}
{"id": "C76", "title": "monitor_is_threaded tells whether pthread_create was called", "statement": "monitor_is_threaded returns 1 exactly when pthread_create has been called in this process (in a child of fork: since the fork); in particular when the process has a second thread.", "quantifier": "all interleavings of threads, signals, forks and callbacks that call the library", "why_tests_cant": "The flag is set by the first pthread_create and cleared in every child; the answer depends on where a fork or a handler falls.", "anchors": ["src/pthread.c:641-648", "src/pthread.c:1076-1079", "src/pthread.c:324-359", "src/main.c:674-678"]}
{"id": "C77", "title": "The shell gets the application's signal actions and mask", "statement": "The shell that system() or monitor_real_system() starts has the mask that the calling thread had when it called, and for SIGINT and SIGQUIT the actions that the application has set, although system() changes all three in the meantime.", "quantifier": "every interleaving of calls in any number of threads, signal handlers and callbacks, with forks, cancellation and longjmp, every action and mask", "why_tests_cant": "The actions belong to the process and the masks to the threads; whether the child sees what the application set depends on which other calls are in progress.", "anchors": ["src/fork.c:558-560", "src/fork.c:568-582"]}
{"id": "C78", "title": "What each concurrent system() call does, and its child never returns", "statement": "Every call of system() makes, in its own thread and in this order, once each: pre-fork, the three changes of signal state, fork, the wait, the restoration of exactly what it found, post-fork with the result of fork and the value of pre-fork, and returns the status from waitpid, or -1 if fork failed; SIGCHLD is blocked in the thread while it waits. The child restores the same values, becomes the shell or exits with 127, makes no callback and never returns to the application.", "quantifier": "every interleaving of calls in any number of threads, signal handlers and callbacks, with forks, cancellation and longjmp, every outcome of fork, waitpid and exec", "why_tests_cant": "Interleavings, and the points at which handlers interrupt a call in parent or child, are unbounded in number.", "anchors": ["src/fork.c:523-603"]}
{"id": "C79", "title": "What each concurrent pthread_create does with attributes", "statement": "Every call of pthread_create, whatever other threads do with the same attribute object, reads the stack size, asks the client about exactly that size, sets the client's answer if it differs, calls the real function once, sets the size that it has read again, and returns the real result; without an attribute object it uses one of its own, which has the client's size and nothing else, is always initialised when used and is destroyed exactly once. Nothing but the size of an application's object is ever touched.", "quantifier": "every interleaving of calls in any number of threads, callbacks and signal handlers, any number of attribute objects, every outcome of the attribute calls, with forks and longjmp", "why_tests_cant": "Interleavings and the points at which handlers interrupt a call are unbounded in number; failures of the attribute functions do not occur in practice.", "anchors": ["src/pthread.c:1012-1053", "src/pthread.c:1058-1177"]}
{"id": "C80", "title": "Attribute objects shared by several pthread_create calls are left alone", "statement": "After pthread_create returned the application's attribute object is as the application made it, and the new thread got the client's stack size if it could be set and otherwise the object as it was, also if the object is used for many threads.", "quantifier": "every interleaving of calls in any number of threads, callbacks and signal handlers, every history of the object, every answer of the client", "why_tests_cant": "The error needs two calls to overlap inside a window of a few instructions, and then only shows as a slowly growing stack size.", "anchors": ["src/pthread.c:1012-1053", "src/pthread.c:1142-1161"]}
{"id": "C81", "title": "Without a client that asks for other sizes, attribute objects are never written", "statement": "If monitor_reset_stacksize answers with the size it is told, as the library's default callback does, pthread_create never writes an attribute object of the application, and the real pthread_create gets the application's own pointer to an object that is exactly what the application has made of it.", "quantifier": "every execution with any number of threads, objects shared by several calls at the same time, changes by the application meanwhile, forks, and calls left by longjmp or thread exit", "why_tests_cant": "Only some interleavings of several calls on one object show a lost change; that there is none for the default callback is a statement about all of them.", "anchors": ["src/pthread.c:monitor_adjust_stack_size", "src/pthread.c:pthread_create", "src/callback.c:monitor_reset_stacksize"]}
{"id": "C82", "title": "Each unmonitored program gets its own environment, also in programs with several threads", "statement": "A program started by monitor_real_execve or monitor_real_system gets exactly the environment given to that call, in order and without the strings that mention LD_PRELOAD, whatever other calls are in progress in other threads and signal handlers; no string mentioning LD_PRELOAD ever gets into such a program, and neither the copy nor the kernel uses a cell outside of the array.", "quantifier": "every interleaving of calls in any number of threads and signal handlers, with forks, failing calls and longjmp; every environment", "why_tests_cant": "The new environment is built in one static array that all calls share; a test would have to hit a window of a few instructions between the copy and exec.", "anchors": ["src/fork.c:monitor_real_execve", "src/fork.c:monitor_copy_environ", "src/fork.c:monitor_system"]}
{"id": "C83", "title": "One-time initialisation runs once, and nobody gets past it before it is done", "statement": "monitor_early_init, monitor_normal_init and monitor_begin_library_fcn run at most once in a process and all of its forked children, so monitor_init_library is called at most once; every call that has returned from one of the first two, and every callback, finds the record of the main thread initialised; and the user data in that record is always what was stored last. Whatever order other threads, signal handlers and callbacks call in once the first initialisation is over.", "quantifier": "every execution with any number of threads, signal handlers, recursive calls from callbacks, forks and longjmp out of handlers and callbacks", "why_tests_cant": "The guard MONITOR_RUN_ONCE tests and sets its flag in two steps; a second run needs a signal between two instructions of the first call in the process.", "anchors": ["src/common.h:MONITOR_RUN_ONCE", "src/main.c:monitor_early_init", "src/main.c:monitor_normal_init", "src/main.c:monitor_begin_library_fcn", "src/main.c:monitor_begin_process_fcn"]}
{"id": "C84", "title": "The first use of the signal table loses no handler, and the shootdown signal never changes", "statement": "monitor_shootdown_signal always returns the number of a signal that can be caught and does not stop the process, always the same one, and that signal is kept open. A signal for which the client has set a handler is kept open. Whenever libmonitor's handler runs, it finds the handler that the client has set last and the action that the application has set last, or had before libmonitor's handler was installed; it never takes its own handler for the application's. This whoever makes the first call of monitor_signal_init, and whatever calls other threads and signal handlers make in the meantime.", "quantifier": "every execution with any number of threads and signal handlers that call monitor_shootdown_signal, monitor_sigaction, sigaction and signal, with forks, longjmp out of handlers and changes of the environment; every configuration and every initial action", "why_tests_cant": "The initialisation clears the table, chooses a signal and installs more than sixty handlers, behind a guard that tests and sets its flag in two steps; what goes wrong needs a call or a signal between two of these steps.", "anchors": ["src/signal.c:monitor_signal_init", "src/signal.c:monitor_choose_shootdown_early", "src/signal.c:monitor_shootdown_signal", "src/signal.c:monitor_sigaction", "src/signal.c:monitor_appl_sigaction", "src/common.h:MONITOR_RUN_ONCE"]}
{"id": "C85", "title": "All user data come from the client", "statement": "Whatever libmonitor passes to a callback as user data, or returns from monitor_get_user_data, is NULL or was returned by a callback earlier, in this process or one it descends from. monitor_init_process gets NULL or what a monitor_pre_fork returned; monitor_post_fork what monitor_pre_fork returned in the same call; monitor_init_thread and monitor_thread_post_create NULL or what a monitor_thread_pre_create or a monitor_init_thread returned; monitor_fini_process NULL or what a monitor_init_process or monitor_pre_fork returned, or, in the child of monitor_real_fork, the data of the thread that called it. With the default callbacks all user data are always NULL.", "quantifier": "every execution: any number of threads, all interleavings, signal handlers anywhere, threads that end anywhere, forks and monitor_real_fork in any thread, failing allocations, and every value returned by callbacks", "why_tests_cant": "Thread records are reused and main's record is taken over after a fork; stale data of another thread would show only under particular reuse and races, which are too many to try.", "anchors": ["src/callback.c:monitor_init_process", "src/callback.c:monitor_init_thread", "src/callback.c:monitor_thread_pre_create", "src/callback.c:monitor_pre_fork", "src/pthread.c:monitor_make_thread_node", "src/pthread.c:monitor_reset_thread_list", "src/pthread.c:monitor_begin_thread", "src/pthread.c:monitor_get_user_data", "src/main.c:monitor_begin_process_fcn", "src/main.c:monitor_end_process_fcn"]}
{"id": "C86", "title": "Thread records are used again", "statement": "The memory for thread records is never freed, but records are used again: a process that never has more than k records out at the same time (given to a call of pthread_create and not given back by the thread at its end) cuts at most k records from its arrays, however many threads it makes. Each call of pthread_create takes at most one record. A thread that has entered its start routine and is gone has given its record back, so that the number of records is bounded by the largest number of threads and creations in progress at a time.", "quantifier": "every execution of a process: any number of threads and calls, all interleavings, handlers anywhere, threads ending anywhere, failing and succeeding creations", "why_tests_cant": "A slow leak or an array that grows although records are free shows only after hundreds of threads under particular orders of ends and creations; the bound is about all of them.", "anchors": ["src/pthread.c:monitor_make_thread_node", "src/pthread.c:monitor_link_thread_node", "src/pthread.c:monitor_unlink_thread_node", "src/pthread.c:monitor_pthread_cleanup_routine", "src/pthread.c:monitor_thread_list_init", "src/pthread.c:pthread_create"]}
{"id": "C87", "title": "Calls and callbacks are properly nested", "statement": "In each thread, what libmonitor reports is properly nested: whenever a callback returns, or a call of pthread_create, fork or monitor_broadcast_signal returns, it is the innermost of all callbacks and calls that this thread has begun and not ended. This also holds with signal handlers, with library functions called inside callbacks, in threads that are ended in the middle of a callback, and in the child of a fork. If no thread is ended inside a callback or call, then a thread that is gone, or that runs only application code, has nothing open: everything that began has ended.", "quantifier": "every execution: any number of threads, all interleavings, signal handlers and library calls nested to any depth, threads ending anywhere, forks anywhere, failing external calls", "why_tests_cant": "Unbounded nesting through handlers and calls inside callbacks, interleaved with other threads and forks; a mismatch would need a particular nest.", "anchors": ["src/pthread.c:pthread_create", "src/pthread.c:monitor_begin_thread", "src/pthread.c:monitor_shootdown_handler", "src/pthread.c:monitor_pthread_cleanup_routine", "src/pthread.c:monitor_broadcast_signal", "src/main.c:monitor_begin_process_fcn", "src/main.c:monitor_end_process_fcn", "src/main.c:monitor_begin_library_fcn", "src/main.c:monitor_end_library_fcn", "src/fork.c:monitor_fork"]}
{"id": "C88", "title": "Callbacks run outside the list lock", "statement": "libmonitor never calls a client callback or application code from inside its list lock: if a thread holds the lock, then whatever it runs above the place that holds it is a signal handler that came there, or runs on top of one. Hence, if no signal handler begins inside the lock, every callback, main and every start routine run in threads that do not hold it, callbacks may call pthread_create, exit, monitor_broadcast_signal and the other functions, and no thread ever waits for a lock that it holds itself.", "quantifier": "every execution: any number of threads, all interleavings, library calls from handlers and callbacks nested to any depth, threads ending anywhere, forks", "why_tests_cant": "A callback inside the lock would only matter when the client happens to call a function that takes the lock there; absence over all paths cannot be tested.", "anchors": ["src/pthread.c:monitor_make_thread_node", "src/pthread.c:monitor_link_thread_node", "src/pthread.c:monitor_unlink_thread_node", "src/pthread.c:monitor_thread_shootdown", "src/pthread.c:monitor_broadcast_signal", "src/pthread.c:monitor_begin_thread", "src/pthread.c:pthread_create"]}
{"id": "C89", "title": "monitor_block_shootdown keeps fini-thread away", "statement": "After a thread has called monitor_block_shootdown, and until it calls monitor_unblock_shootdown, fini-thread is not called in it by the shootdown signal, by the cleanup routine or by the sigwait functions, whatever the other threads do. This needs three conditions: a created thread does not fork while it is blocked; the function is called in threads that libmonitor knows; and no signal handler blocks between the library's test and its call of fini-thread. The thread that ends the process is excepted: it gets fini-thread even if blocked. The function returns 1, in threads that libmonitor knows, exactly when the shootdown has begun in this process or in a process it was forked from.", "quantifier": "every execution: any number of threads, all interleavings, block and unblock calls anywhere (also in signal handlers and callbacks), records used again by later threads, threads ending anywhere, forks", "why_tests_cant": "The fini-thread callback in the middle of a sample needs a signal in a window of a few instructions, and a record that carries the flag of another thread needs a particular order of ends and creations.", "anchors": ["src/pthread.c:monitor_block_shootdown", "src/pthread.c:monitor_unblock_shootdown", "src/pthread.c:monitor_shootdown_handler", "src/pthread.c:monitor_pthread_cleanup_routine", "src/pthread.c:monitor_sigwait_helper", "src/pthread.c:monitor_thread_shootdown", "src/pthread.c:monitor_reset_thread_list"]}
{"id": "C90", "title": "Cancellation does not cut off the exit cleanup", "statement": "From the moment a thread begins the exit cleanup of the threads until it has ended it, and from the moment the shootdown handler or the sigwait functions have decided to call fini-thread until the callback has returned and is recorded, the thread cannot be cancelled, whatever signal handlers run on top, provided that foreign code does not itself change the cancelability inside these calls. Outside them the thread's cancelability is what its own code last asked for. If foreign code does not call pthread_exit inside them, either, then each of these calls, once begun, is left only by returning to its caller.", "quantifier": "every execution: any number of threads, all interleavings, cancellation requests taking effect at any step of any thread, pthread_setcancelstate calls of the application anywhere else, nested handlers, exits from handlers, threads ending anywhere, forks", "why_tests_cant": "A cancellation must hit a window inside the exit cleanup; a missing restore on one path shows only in a thread that later relies on being cancelled, in a process that is about to end.", "anchors": ["src/pthread.c:monitor_shootdown_handler", "src/pthread.c:monitor_thread_shootdown", "src/pthread.c:monitor_sigwait_helper", "src/pthread.c:monitor_pthread_cleanup_routine", "src/main.c:monitor_end_process_fcn"]}
{"id": "C91", "title": "A thread finds only its own record by its pthread_t", "statement": "When the thread that ends the process looks for its own record on the thread list, when it decides whether it is the initial thread, and when monitor_broadcast_signal leaves out the calling thread, the record whose pthread_t equals the caller's is the caller's own, although the system gives the pthread_t of threads that are gone to new ones: fini-thread is called with the number and data of the calling thread, the exit cleanup waits for all other threads, and a broadcast reaches all other threads.", "quantifier": "every execution: any number of threads and all interleavings, every way in which pthread_t values are given to threads such that threads that exist at the same time have different ones", "why_tests_cant": "Whether a pthread_t is given again depends on the C library's stack cache and on when threads are joined; a stale record on the list shows only if the thread that ends the process happens to have inherited its value.", "anchors": ["src/pthread.c:monitor_thread_shootdown", "src/pthread.c:monitor_broadcast_signal", "src/pthread.c:monitor_pthread_cleanup_routine", "src/pthread.c:monitor_unlink_thread_node"]}
{"id": "C92", "title": "Exit callbacks and the end of the process are what was asked for", "statement": "A thread delivers monitor_begin_process_exit and monitor_fini_process with a reason (normal, exec, signal) at most as often as it has itself asked for an exit with that reason: normal by the end of main, exit, _exit or pthread_exit in the initial thread; exec by an exec of a file that looks executable; signal by a signal that ends the process. It ends the process only in the way it was asked to: exit ends in exit, _exit in _exit, exec in exec, monitor_real_exit in _exit without callbacks, a fatal signal in that signal, each at most once per request. If nobody asks, there are no exit callbacks.", "quantifier": "every execution: any number of threads and forks, all interleavings, handlers at any point, failing execs, exits inside callbacks and handlers, exits inside the C library (err, errx, fatal errors of libmonitor)", "why_tests_cant": "Tests exit in one way and look at one reason; a wrong reason or a second attempt shows only when exits of different kinds overlap, when an exec fails, or when one is made inside the callbacks of another.", "anchors": ["src/main.c:monitor_end_process_fcn", "src/main.c:exit", "src/main.c:_exit", "src/fork.c:execve", "src/signal.c:monitor_signal_handler", "src/pthread.c:pthread_exit", "src/common.h:MONITOR_ERROR"]}
