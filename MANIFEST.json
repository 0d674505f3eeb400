{
 "claims": [
  {
   "property": "C01",
   "status": "proved",
   "note": "Any threads, interleavings, nested exits and fork depth; even at most once in a whole line of descent (cookie is inherited).",
   "theorems": [
    "Libmonitor.Proc.C01_fini_process_once",
    "Libmonitor.Proc.C01_fini_process_once_in_lineage"
   ]
  },
  {
   "property": "C02",
   "status": "proved",
   "note": "Once per process, and fini_process only after begin_process_exit returned in the same thread with the same argument.",
   "theorems": [
    "Libmonitor.Proc.C02_begin_exit_once",
    "Libmonitor.Proc.C02_fini_process_after_begin_exit"
   ]
  },
  {
   "property": "C03",
   "status": "partial",
   "note": "No hooked exit before fini-process returned or some thread came through as repeat winner: all executions. That the repeat winner is the delivering thread: Clean executions, except in the child of an ignored thread (witness C03_inherited_mark); outside Clean a dying thread whose record was reused passes (witness C03_stale_record).",
   "theorems": [
    "Libmonitor.Proc.C03_no_exit_before_fini_process_partial",
    "Libmonitor.Proc.C03_stale_record",
    "Libmonitor.Proc.C03_reentry",
    "Libmonitor.Proc.C03_repeat_is_winner_partial",
    "Libmonitor.Proc.C03_no_exit_before_winner_partial",
    "Libmonitor.Proc.C03_inherited_mark"
   ]
  },
  {
   "property": "C04",
   "status": "partial",
   "note": "Once per process when no process is forked while init-library runs in the process start and no handler enters the library in a child before its start; both exceptions are real (witness theorems).",
   "theorems": [
    "Libmonitor.Proc.C04_init_process_once_partial",
    "Libmonitor.Proc.C04_fork_in_init_library",
    "Libmonitor.Proc.C04_handler_in_child"
   ]
  },
  {
   "property": "C05",
   "status": "partial",
   "note": "Proved for executions without pthread_create or fork inside monitor_init_library; fails there and in monitor_real_fork children (witnesses).",
   "theorems": [
    "Libmonitor.Proc.C05_init_process_first_partial",
    "Libmonitor.Proc.C05_create_in_init_library",
    "Libmonitor.Proc.C05_real_fork_child"
   ]
  },
  {
   "property": "C06",
   "status": "partial",
   "note": "Exact value of the argument for all executions; equal to init-process's own result except when exit runs before init-process returned, after monitor_real_fork, or after a fork inside init-process (witnesses).",
   "theorems": [
    "Libmonitor.Proc.C06_fini_process_data",
    "Libmonitor.Proc.C06_fini_process_data_partial",
    "Libmonitor.Proc.C06_exit_in_init_process",
    "Libmonitor.Proc.C06_real_fork",
    "Libmonitor.Proc.C06_fork_in_init_process"
   ]
  },
  {
   "property": "C07",
   "status": "partial",
   "note": "init_library proved for all executions. fini_library once only without concurrent or recursive end of library; three witnesses.",
   "theorems": [
    "Libmonitor.Proc.C07_init_library_once",
    "Libmonitor.Proc.C07_fini_library_once_partial",
    "Libmonitor.Proc.C07_two_threads",
    "Libmonitor.Proc.C07_recursion",
    "Libmonitor.Proc.C07_late_start"
   ]
  },
  {
   "property": "C08",
   "status": "partial",
   "note": "init part proved for all executions; exit part proved when nobody forks after an exit function was entered; fails otherwise (witnesses).",
   "theorems": [
    "Libmonitor.Proc.C08_child_init_process",
    "Libmonitor.Proc.C08_child_exit_partial",
    "Libmonitor.Proc.C08_child_not_blocked_partial",
    "Libmonitor.Proc.C08_child_blocked",
    "Libmonitor.Proc.C08_child_without_fini",
    "Libmonitor.Proc.C08_child_threads_refused",
    "Libmonitor.Proc.C08_winner_ends"
   ]
  },
  {
   "property": "C09",
   "status": "partial",
   "note": "Numbers increase, all executions; a thread's number is its own for Clean executions, witness outside",
   "theorems": [
    "Libmonitor.Proc.C09_increasing",
    "Libmonitor.Proc.C09_thread_numbers_partial",
    "Libmonitor.Proc.C09_number_zero"
   ]
  },
  {
   "property": "C10",
   "status": "partial",
   "note": "Live threads never share a record, owned records are not available, and records are private, in executions where fork and late destructors do not interfere (Clean); records lie inside their arrays in all executions. The claim fails for a thread in its TSD destructors and for a thread that forked in its start routine and returns from it in the child (witnesses).",
   "theorems": [
    "Libmonitor.Proc.C10_not_shared_partial",
    "Libmonitor.Proc.C10_not_available_partial",
    "Libmonitor.Proc.C10_own_record_partial",
    "Libmonitor.Proc.C10_private_partial",
    "Libmonitor.Proc.C10_user_data_partial",
    "Libmonitor.Proc.C10_inside_array",
    "Libmonitor.Proc.C10_dying_shares",
    "Libmonitor.Proc.C10_orphan_shares"
   ]
  },
  {
   "property": "C11",
   "status": "partial",
   "note": "Once and in order for all executions; values for Clean executions, witness outside",
   "theorems": [
    "Libmonitor.Proc.C11_start_once",
    "Libmonitor.Proc.C11_init_before_start",
    "Libmonitor.Proc.C11_values_partial",
    "Libmonitor.Proc.C11_made_once",
    "Libmonitor.Proc.C11_wrong_start"
   ]
  },
  {
   "property": "C12",
   "status": "partial",
   "note": "Clean executions in which no signal is handled between the test of tn_fini_started and the note there. In that window the claim is false (C12_window_twice); also for a thread in its destructors whose record was reused (C12_dying_twice)",
   "theorems": [
    "Libmonitor.Proc.C12_once_partial",
    "Libmonitor.Proc.C12_window_twice",
    "Libmonitor.Proc.C12_dying_twice"
   ]
  },
  {
   "property": "C13",
   "status": "partial",
   "note": "Clean executions; witnesses: exit inside init-thread; fork from a created thread",
   "theorems": [
    "Libmonitor.Proc.C13_fini_after_init_partial",
    "Libmonitor.Proc.C13_exit_in_init",
    "Libmonitor.Proc.C13_wrong_thread"
   ]
  },
  {
   "property": "C14",
   "status": "partial",
   "note": "Clean executions: every registered thread that had entered its start routine when the shootdown began, and the initial thread, has returned from fini-thread before fini-process starts, or the shootdown gave up. Missing: the exiting thread when it calls exit inside its own fini-thread callback (witness) and executions outside Clean (witness).",
   "theorems": [
    "Libmonitor.Proc.C14_all_finished_partial",
    "Libmonitor.Proc.C14_exit_in_fini_thread",
    "Libmonitor.Proc.C14_dying_for_other"
   ]
  },
  {
   "property": "C15",
   "status": "proved",
   "note": "all executions",
   "theorems": [
    "Libmonitor.Proc.C15_no_start_after_cleanup"
   ]
  },
  {
   "property": "C16",
   "status": "partial",
   "note": "Clean executions; witness outside",
   "theorems": [
    "Libmonitor.Proc.C16_frozen_partial",
    "Libmonitor.Proc.C16_reset_in_exit"
   ]
  },
  {
   "property": "C17",
   "status": "partial",
   "note": "No init-thread: all executions; no fini-thread and which threads are ignored: Clean executions, and C17_child_confused shows that both fail outside (a handler that runs in a new child before its state is reset); start routine runs unless a handler ends the thread first",
   "theorems": [
    "Libmonitor.Proc.C17_never_init",
    "Libmonitor.Proc.C17_never_fini_partial",
    "Libmonitor.Proc.C17_registered_partial",
    "Libmonitor.Proc.C17_child_confused",
    "Libmonitor.Proc.C17_start_runs_partial"
   ]
  },
  {
   "property": "C18",
   "status": "partial",
   "note": "never blocks and fails exactly when the lock is taken: all executions. Never signals the caller, and exactly one signal to every other running registered thread and to main: executions in Clean, calls not interrupted by a fork (witness C18_caller_after_fork). During exit cleanup main may get two (witness C18_main_twice).",
   "theorems": [
    "Libmonitor.Proc.C18_never_blocks",
    "Libmonitor.Proc.C18_fails_if_locked",
    "Libmonitor.Proc.C18_not_caller_partial",
    "Libmonitor.Proc.C18_caller_after_fork",
    "Libmonitor.Proc.C18_sent_partial",
    "Libmonitor.Proc.C18_main_twice"
   ]
  },
  {
   "property": "C19",
   "status": "proved",
   "note": "loop over arbitrary observation streams",
   "theorems": [
    "Libmonitor.Shoot.C19_stops_when_all_done",
    "Libmonitor.Shoot.C19_finished_sound",
    "Libmonitor.Shoot.C19_gives_up_late",
    "Libmonitor.Shoot.C19_gives_up_after_every_begin",
    "Libmonitor.Shoot.C19_terminates",
    "Libmonitor.Shoot.C19_kills_exact",
    "Libmonitor.Shoot.C19_stuck_callback_loops"
   ]
  },
  {
   "property": "C20",
   "status": "partial",
   "note": "Clean executions, threads whose creations are neither ignored nor nested: the query reports the creation in progress or fails. Ignored, nested and unwound creations, an ignored thread's fork, and a fork inside of a creation violate the claim (witnesses).",
   "theorems": [
    "Libmonitor.Proc.C20_info_partial",
    "Libmonitor.Proc.C20_ignored_dangling",
    "Libmonitor.Proc.C20_nested_cleared",
    "Libmonitor.Proc.C20_unwound_creation",
    "Libmonitor.Proc.C20_forked_info",
    "Libmonitor.Proc.C20_forked_creation"
   ]
  },
  {
   "property": "C21",
   "status": "partial",
   "note": "false for failed restore, default attribute and shared attributes (witness theorems); holds otherwise",
   "theorems": [
    "Libmonitor.Attr.C21_attr_create",
    "Libmonitor.Attr.C21_attr_restored_partial",
    "Libmonitor.Attr.C21_restore_failure_violates",
    "Libmonitor.Attr.C21_default_frozen",
    "Libmonitor.Attr.C21_concurrent_violates"
   ]
  },
  {
   "property": "C22",
   "status": "partial",
   "note": "Order and once: all executions; value: Clean executions: the pre-create value, or the value of the new thread's init-thread if that has returned, until the new thread's fini-thread has returned; witnesses for the init-thread value, for another thread's value after the record was reused, and for a child",
   "theorems": [
    "Libmonitor.Proc.C22_once",
    "Libmonitor.Proc.C22_paired",
    "Libmonitor.Proc.C22_wrong_value",
    "Libmonitor.Proc.C22_others_value",
    "Libmonitor.Proc.C22_forked_value",
    "Libmonitor.Proc.C22_value_partial"
   ]
  },
  {
   "property": "C23",
   "status": "proved",
   "note": "any number of threads, handlers, long jumps, cancellation, LL/SC, fork",
   "theorems": [
    "Libmonitor.Lock.C23_lock_mutual_exclusion",
    "Libmonitor.Lock.C23_lock_word",
    "Libmonitor.Lock.C23_lock_word_exact",
    "Libmonitor.Lock.C23_trylock_result"
   ]
  },
  {
   "property": "C24",
   "status": "proved",
   "note": "heap refinement; misuse (double insert/remove) shown to corrupt",
   "theorems": [
    "Libmonitor.Queue.C24_insert_head",
    "Libmonitor.Queue.C24_remove",
    "Libmonitor.Queue.C24_init",
    "Libmonitor.Queue.C24_walk",
    "Libmonitor.Queue.C24_history",
    "Libmonitor.Queue.C24_history_frame",
    "Libmonitor.Queue.C24_double_remove_corrupts",
    "Libmonitor.Queue.C24_double_insert_cycles"
   ]
  },
  {
   "property": "C25",
   "status": "proved",
   "note": "",
   "theorems": [
    "Libmonitor.Sig.C25_kept_mask_unchanged",
    "Libmonitor.Sig.C25_never_blocked",
    "Libmonitor.Sig.C25_other_signals"
   ]
  },
  {
   "property": "C26",
   "status": "proved",
   "note": "",
   "theorems": [
    "Libmonitor.Sig.C26_virtualised"
   ]
  },
  {
   "property": "C27",
   "status": "proved",
   "note": "the one exception, the shootdown signal once its handler is installed, is stated",
   "theorems": [
    "Libmonitor.Sig.C27_kernel_handlers",
    "Libmonitor.Sig.C27_kernel_mask"
   ]
  },
  {
   "property": "C28",
   "status": "partial",
   "note": "false for a sent SIGSEGV/SIGBUS/SIGILL with default action (witness)",
   "theorems": [
    "Libmonitor.Sig.C28_client_first",
    "Libmonitor.Sig.C28_dispatch_partial",
    "Libmonitor.Sig.C28_termination_order",
    "Libmonitor.Sig.C28_sent_fault_survived",
    "Libmonitor.Sig.C28_ignored_fault_not_fatal"
   ]
  },
  {
   "property": "C29",
   "status": "partial",
   "note": "SA_RESETHAND and ignored-across-exec are false (witnesses); the rest is proved",
   "theorems": [
    "Libmonitor.Sig.C29_repeated_delivery_partial",
    "Libmonitor.Sig.C29_resethand_runs_again",
    "Libmonitor.Sig.C29_exec_partial",
    "Libmonitor.Sig.C29_ignored_lost_at_exec"
   ]
  },
  {
   "property": "C30",
   "status": "partial",
   "note": "validity is false for a reserved number from the environment (witness); everything else proved",
   "theorems": [
    "Libmonitor.Sig.C30_table_in_bounds",
    "Libmonitor.Sig.C30_choice_partial",
    "Libmonitor.Sig.C30_priority",
    "Libmonitor.Sig.C30_valid_partial",
    "Libmonitor.Sig.C30_invalid_from_environment"
   ]
  },
  {
   "property": "C31",
   "status": "partial",
   "note": "a second queued shootdown request reaches the application (witness)",
   "theorems": [
    "Libmonitor.Sig.C31_sigwait_partial",
    "Libmonitor.Sig.C31_returned",
    "Libmonitor.Sig.C31_second_shootdown_leaks"
   ]
  },
  {
   "property": "C32",
   "status": "partial",
   "note": "entries that merely mention LD_PRELOAD are dropped as well (C32_other_variable_dropped)",
   "theorems": [
    "Libmonitor.Fork.C32_environ_copy_partial",
    "Libmonitor.Fork.C32_environ_copy_intended_partial",
    "Libmonitor.Fork.C32_no_preload",
    "Libmonitor.Fork.C32_other_variable_dropped"
   ]
  },
  {
   "property": "C33",
   "status": "partial",
   "note": "a NULL first argument reads past the argument list (C33_null_first_ub)",
   "theorems": [
    "Libmonitor.Fork.C33_variadic_args_partial",
    "Libmonitor.Fork.C33_execl_real_call_partial",
    "Libmonitor.Fork.C33_null_first_ub",
    "Libmonitor.Fork.C33_null_first_execle_ub"
   ]
  },
  {
   "property": "C34",
   "status": "partial",
   "note": "unset PATH, long PATH elements, empty elements, empty names and directories disagree with execvp (witness theorems)",
   "theorems": [
    "Libmonitor.Fork.C34_execve_partial",
    "Libmonitor.Fork.C34_execvp_partial",
    "Libmonitor.Fork.C34_path_unset_ub",
    "Libmonitor.Fork.C34_path_too_long_ub",
    "Libmonitor.Fork.C34_empty_element",
    "Libmonitor.Fork.C34_directory",
    "Libmonitor.Fork.C34_empty_name"
   ]
  },
  {
   "property": "C35",
   "status": "proved",
   "note": "one caller at a time; see C46 for several",
   "theorems": [
    "Libmonitor.Fork.C35_system",
    "Libmonitor.Fork.C35_system_null",
    "Libmonitor.Fork.C35_system_child"
   ]
  },
  {
   "property": "C36",
   "status": "proved",
   "note": "All executions.",
   "theorems": [
    "Libmonitor.Proc.C36_callbacks_once",
    "Libmonitor.Proc.C36_parent",
    "Libmonitor.Proc.C36_child",
    "Libmonitor.Proc.C36_real_fork"
   ]
  },
  {
   "property": "C37",
   "status": "proved",
   "theorems": [
    "Libmonitor.Mpi.C37_mpi_callbacks_outermost",
    "Libmonitor.Mpi.C37_mpi_nested",
    "Libmonitor.Mpi.C37_mpi_pre_init_count"
   ],
   "note": "all call trees; init/finalize counters are unbounded integers"
  },
  {
   "property": "C38",
   "status": "proved",
   "theorems": [
    "Libmonitor.Mpi.C38_size_rank_first_usable",
    "Libmonitor.Mpi.C38_size_rank_stable"
   ],
   "note": "single-threaded histories of wrapper calls"
  },
  {
   "property": "C39",
   "status": "proved",
   "theorems": [
    "Libmonitor.Utils.C39_sigset_string_in_bounds",
    "Libmonitor.Utils.C39_sigset_string_fits",
    "Libmonitor.Utils.C39_signal_list_in_bounds",
    "Libmonitor.Utils.C39_empty_buffer_ub",
    "Libmonitor.Utils.C39_huge_members_ub"
   ],
   "note": "C39_empty_buffer_ub and C39_huge_members_ub show that the preconditions are needed"
  },
  {
   "property": "C40",
   "status": "proved",
   "theorems": [
    "Libmonitor.Utils.C40_sigset_string_faithful",
    "Libmonitor.Utils.C40_sigset_string_injective",
    "Libmonitor.Utils.C40_signal_list_faithful"
   ],
   "note": "any MONITOR_NSIG up to 100000"
  },
  {
   "property": "C41",
   "status": "partial",
   "note": "Specification proved for all processes and names (C41_lookup), all cases of the first lookup (C41_first); 'never the own wrapper' and termination are false in general (witness theorems).",
   "theorems": [
    "Libmonitor.Dl.C41_lookup",
    "Libmonitor.Dl.C41_not_own_wrapper_partial",
    "Libmonitor.Dl.C41_own_wrapper_violates",
    "Libmonitor.Dl.C41_unbounded_recursion",
    "Libmonitor.Dl.C41_init",
    "Libmonitor.Dl.C41_first"
   ]
  },
  {
   "property": "C42",
   "status": "proved",
   "note": "interleaved and nested calls in any number of threads; calls left by longjmp, an exception or the end of the thread included (C42_bracketed, C42_at_most)",
   "theorems": [
    "Libmonitor.Dl.C42_bracketed",
    "Libmonitor.Dl.C42_bracketed_complete",
    "Libmonitor.Dl.C42_never_null",
    "Libmonitor.Dl.C42_counts",
    "Libmonitor.Dl.C42_at_most"
   ]
  },
  {
   "property": "C43",
   "status": "proved",
   "note": "all layouts",
   "theorems": [
    "Libmonitor.Fence.C43_narrow_wide",
    "Libmonitor.Fence.C43_outside",
    "Libmonitor.Fence.C43_application_recognised",
    "Libmonitor.Fence.C43_order_needed",
    "Libmonitor.Fence.C43_last_byte_needed"
   ]
  },
  {
   "property": "C44",
   "status": "partial",
   "note": "command words proved both ways; preload order false for names with colon or space",
   "theorems": [
    "Libmonitor.Script.C44_runs_command",
    "Libmonitor.Script.C44_runs_only",
    "Libmonitor.Script.C44_preload_order_partial",
    "Libmonitor.Script.C44_preload_has_libmonitor",
    "Libmonitor.Script.C44_preload_split_violates"
   ]
  },
  {
   "property": "C45",
   "status": "partial",
   "note": "exact for clean words; false for names with spaces",
   "theorems": [
    "Libmonitor.Script.C45_shape",
    "Libmonitor.Script.C45_link_line_partial",
    "Libmonitor.Script.C45_insert_split_violates"
   ]
  },
  {
   "property": "C46",
   "status": "partial",
   "note": "False for overlapping calls, cancelled calls, forks and settings meanwhile (C46_overlap, C46_cancelled, C46_forked, C46_set_meanwhile); proved for properly nested calls in any threads, handlers and callbacks; all executions: only SIG_IGN or the application's actions are ever installed",
   "theorems": [
    "Libmonitor.Fork.C46_system_nested_partial",
    "Libmonitor.Fork.C46_overlap_loses_action",
    "Libmonitor.SysC.C46_known",
    "Libmonitor.SysC.C46_restored_partial",
    "Libmonitor.SysC.C46_overlap",
    "Libmonitor.SysC.C46_cancelled",
    "Libmonitor.SysC.C46_forked",
    "Libmonitor.SysC.C46_set_meanwhile"
   ]
  },
  {
   "property": "C47",
   "status": "partial",
   "note": "false in general (witness family)",
   "theorems": [
    "Libmonitor.Sig.C47_timeout_partial",
    "Libmonitor.Sig.C47_timeout_exceeded"
   ]
  },
  {
   "property": "C48",
   "status": "partial",
   "note": "false if the application sets an action for the signal (witness)",
   "theorems": [
    "Libmonitor.Sig.C48_shootdown_stays_partial",
    "Libmonitor.Sig.C48_application_replaces"
   ]
  },
  {
   "property": "C49",
   "status": "partial",
   "note": "false for SA_RESTART and SA_ONSTACK",
   "theorems": [
    "Libmonitor.Sig.C49_flags_partial",
    "Libmonitor.Sig.C49_restart_and_stack_lost"
   ]
  },
  {
   "property": "C50",
   "status": "partial",
   "note": "false for SIG_IGN",
   "theorems": [
    "Libmonitor.Sig.C50_nocldwait_partial",
    "Libmonitor.Sig.C50_zombies"
   ]
  },
  {
   "property": "C51",
   "status": "partial",
   "note": "After any execution without fork and without frames left by unwinding, from every place inside spinlock_lock, when nobody is inside. False in a fork child, after the holder was ended or left by a long jump, and in a handler interrupting the holder (witness theorems)",
   "theorems": [
    "Libmonitor.Lock.C51_lock_solo_progress_partial",
    "Libmonitor.Lock.C51_lock_progress_partial",
    "Libmonitor.Lock.C51_fork_child_lock_lost",
    "Libmonitor.Lock.C51_unwound_lock_lost",
    "Libmonitor.Lock.C51_handler_self_deadlock"
   ]
  },
  {
   "property": "C52",
   "status": "partial",
   "note": "false when the client enlarges the stack (witness theorem)",
   "theorems": [
    "Libmonitor.Attr.C52_user_stack_partial",
    "Libmonitor.Attr.C52_user_stack_violated"
   ]
  },
  {
   "property": "C53",
   "status": "partial",
   "note": "false for a call directly before the label",
   "theorems": [
    "Libmonitor.Fence.C53_init_not_narrow_partial",
    "Libmonitor.Fence.C53_last_call_violates"
   ]
  },
  {
   "property": "C54",
   "status": "partial",
   "note": "Proved for executions in which no signal handler, long jump, cancellation or dlopen fallback interrupts a run-once initialisation; with those it is false (witnesses C54_signal_in_init, C54_dlopen_in_init).",
   "theorems": [
    "Libmonitor.Names.C54_resolved_before_call_partial",
    "Libmonitor.Names.C54_no_null_call_partial",
    "Libmonitor.Names.C54_no_race_partial",
    "Libmonitor.Names.C54_signal_in_init",
    "Libmonitor.Names.C54_dlopen_in_init"
   ]
  },
  {
   "property": "C55",
   "status": "partial",
   "note": "proved for broadcasts before the exit cleanup in CleanTame executions (created threads), and for the exit cleanup unless the target has begun its fini-thread callback; false otherwise (six witnesses)",
   "theorems": [
    "Libmonitor.Proc.C55_broadcast_partial",
    "Libmonitor.Proc.C55_shootdown_partial",
    "Libmonitor.Proc.C55_ended_before_signal",
    "Libmonitor.Proc.C55_broadcast_in_exit",
    "Libmonitor.Proc.C55_blocked_thread",
    "Libmonitor.Proc.C55_ended_in_callback",
    "Libmonitor.Proc.C55_main_cancelled",
    "Libmonitor.Proc.C55_null_after_fork"
   ]
  },
  {
   "property": "C56",
   "status": "partial",
   "note": "proved when one thread at a time is inside initialisation (finalisation), no handler interrupts the counter update and no call is cancelled; false otherwise (four witnesses)",
   "theorems": [
    "Libmonitor.MpiC.C56_callbacks_partial",
    "Libmonitor.MpiC.C56_counters_partial",
    "Libmonitor.MpiC.C56_two_threads",
    "Libmonitor.MpiC.C56_lost_update",
    "Libmonitor.MpiC.C56_in_handler",
    "Libmonitor.MpiC.C56_cancelled"
   ]
  },
  {
   "property": "C57",
   "status": "partial",
   "note": "origin proved for all executions; first-wins and stability proved when calls of monitor_set_size_rank do not overlap and are not cut short; false otherwise, and failed queries are published (witnesses)",
   "theorems": [
    "Libmonitor.MpiC.C57_source",
    "Libmonitor.MpiC.C57_first_partial",
    "Libmonitor.MpiC.C57_stable_partial",
    "Libmonitor.MpiC.C57_torn",
    "Libmonitor.MpiC.C57_changed",
    "Libmonitor.MpiC.C57_cut_short",
    "Libmonitor.MpiC.C57_failed_query",
    "Libmonitor.MpiC.C57_known_partial",
    "Libmonitor.MpiC.C57_not_during_init_partial",
    "Libmonitor.MpiC.C57_null_rank"
   ]
  },
  {
   "property": "C58",
   "status": "partial",
   "note": "Proved for orderly executions (a thread others wait for is not ended, does not exit again, is not left behind by fork, and no process begins after exit began): somebody is responsible, some thread can go on, the other threads can release the waiting one (C58_released_partial), and under every fair scheduler with nothing new called they do (C58_fair_partial, C58_rest_partial). Missing: threads that enter the library again and again (the lock is not fair). The witnesses show the hangs outside orderly executions.",
   "theorems": [
    "Libmonitor.Proc.C58_rest_partial",
    "Libmonitor.Proc.C58_fair_partial",
    "Libmonitor.Proc.C58_released_partial",
    "Libmonitor.Proc.C58_someone_partial",
    "Libmonitor.Proc.C58_no_deadlock_partial",
    "Libmonitor.Proc.C58_crash_in_fini",
    "Libmonitor.Proc.C58_exit_in_handler",
    "Libmonitor.Proc.C58_create_in_handler",
    "Libmonitor.Proc.C58_crash_before_mark",
    "Libmonitor.Proc.C58_no_record",
    "Libmonitor.Proc.C58_cancelled_in_fini",
    "Libmonitor.Proc.C58_failed_exec",
    "Libmonitor.Proc.C58_lock_after_fork"
   ]
  },
  {
   "property": "C59",
   "status": "partial",
   "note": "single words in all executions; everything if calls and deliveries do not overlap; handler old-or-new if calls do not overlap; witnesses for the races",
   "theorems": [
    "Libmonitor.SigC.C59_known",
    "Libmonitor.SigC.C59_one_call_partial",
    "Libmonitor.SigC.C59_alone_partial",
    "Libmonitor.SigC.C59_torn",
    "Libmonitor.SigC.C59_calls_null",
    "Libmonitor.SigC.C59_calls_null_client",
    "Libmonitor.SigC.C59_lost_action",
    "Libmonitor.SigC.C59_mixed",
    "Libmonitor.SigC.C59_longjmp"
   ]
  },
  {
   "property": "C60",
   "status": "partial",
   "note": "main's arguments and the exit status in all executions; callback arguments exact if nothing enters the library before monitor_main has begun the process; witnesses for the others",
   "theorems": [
    "Libmonitor.Args.C60_sound",
    "Libmonitor.Args.C60_exact_partial",
    "Libmonitor.Args.C60_early",
    "Libmonitor.Args.C60_torn",
    "Libmonitor.Args.C60_torn_mpi",
    "Libmonitor.Args.C60_lost_count",
    "Libmonitor.Args.C60_main_ignores"
   ]
  },
  {
   "property": "C61",
   "status": "proved",
   "note": "all executions; a failed lookup ends the process",
   "theorems": [
    "Libmonitor.Wrap.C61_passed_through",
    "Libmonitor.Wrap.C61_returned"
   ]
  },
  {
   "property": "C62",
   "status": "partial",
   "note": "Proved for Clean executions (no fork inside library calls that hold a record, no calls by threads past their cleanup routine; see DESIGN.md), for the initial thread also: no fork by an ignored thread. Not proved, with witnesses: the child of an ignored thread gets the stack bottom of the parent's main thread; a thread in its destructors gets the values of the thread that reuses its record.",
   "theorems": [
    "Libmonitor.Proc.C62_created_partial",
    "Libmonitor.Proc.C62_ignored_partial",
    "Libmonitor.Proc.C62_main_partial",
    "Libmonitor.Proc.C62_ignored_forks",
    "Libmonitor.Proc.C62_dying"
   ]
  },
  {
   "property": "C63",
   "status": "partial",
   "note": "C63_operations_partial, C63_lists_partial and C63_array_partial: Clean executions only; outside them false, see the witnesses C63_orphan_unlinks and C63_twice_free. C63_main: all executions.",
   "theorems": [
    "Libmonitor.Proc.C63_operations_partial",
    "Libmonitor.Proc.C63_lists_partial",
    "Libmonitor.Proc.C63_array_partial",
    "Libmonitor.Proc.C63_main",
    "Libmonitor.Proc.C63_orphan_unlinks",
    "Libmonitor.Proc.C63_twice_free"
   ]
  },
  {
   "property": "C64",
   "status": "partial",
   "note": "C64_lists_partial: Clean executions; outside them false (witness C64_dead_thread_listed). C64_next_partial: also no fork by a handler during a walk; there false (witness C64_walk_cut).",
   "theorems": [
    "Libmonitor.Proc.C64_lists_partial",
    "Libmonitor.Proc.C64_next_partial",
    "Libmonitor.Proc.C64_walk_cut",
    "Libmonitor.Proc.C64_dead_thread_listed"
   ]
  },
  {
   "property": "C65",
   "status": "partial",
   "note": "sigwait family, sigaction, signal, sigprocmask and the signal handler: all cases. fork, system, exec*, dlopen, dlclose: only if callbacks, warnings and debug messages after the real call leave the error indicator alone; false otherwise (witnesses C65_fork_callback, C65_fork_debug, C65_exec_warning, C65_system_callback, C65_dlopen_callback).",
   "theorems": [
    "Libmonitor.Err.C65_fork_partial",
    "Libmonitor.Err.C65_fork_callback",
    "Libmonitor.Err.C65_fork_debug",
    "Libmonitor.Err.C65_exec_partial",
    "Libmonitor.Err.C65_exec_warning",
    "Libmonitor.Err.C65_real_execve",
    "Libmonitor.Err.C65_system_partial",
    "Libmonitor.Err.C65_system_callback",
    "Libmonitor.Err.C65_sigwait",
    "Libmonitor.Err.C65_sigaction",
    "Libmonitor.Err.C65_sigprocmask",
    "Libmonitor.Err.C65_handler",
    "Libmonitor.Err.C65_dl_partial",
    "Libmonitor.Err.C65_dlopen_callback"
   ]
  },
  {
   "property": "C66",
   "status": "partial",
   "note": "Callbacks first, harmless signals, monitor_real_abort never returns, the uninterrupted handler kills: all executions. That raise (or the repeated fault) kills: if no thread gets through sigaction for the signal in between; false otherwise and for a sent SIGSEGV (witnesses C66_survives, C66_kill_segv, C66_abort_exit)",
   "theorems": [
    "Libmonitor.Term.C66_callbacks_first",
    "Libmonitor.Term.C66_harmless",
    "Libmonitor.Term.C66_default_partial",
    "Libmonitor.Term.C66_fault_partial",
    "Libmonitor.Term.C66_abort_partial",
    "Libmonitor.Term.C66_abort_ends",
    "Libmonitor.Term.C66_run",
    "Libmonitor.Term.C66_survives",
    "Libmonitor.Term.C66_kill_segv",
    "Libmonitor.Term.C66_blocked",
    "Libmonitor.Term.C66_abort_exit"
   ]
  },
  {
   "property": "C67",
   "status": "partial",
   "note": "Mutual exclusion on all machines; order inside the lock on x86 and PowerPC. False on Arm, where unlock has no barrier (witness C67_arm)",
   "theorems": [
    "Libmonitor.Wm.C67_mutex",
    "Libmonitor.Wm.C67_lock_partial",
    "Libmonitor.Wm.C67_x86",
    "Libmonitor.Wm.C67_power",
    "Libmonitor.Wm.C67_arm"
   ]
  },
  {
   "property": "C68",
   "status": "partial",
   "note": "No value from nowhere on all machines; publication on machines whose stores leave in order (x86). False on PowerPC and Arm: the flags have no barriers (witness C68_weak)",
   "theorems": [
    "Libmonitor.Wm.C68_source",
    "Libmonitor.Wm.C68_flag_partial",
    "Libmonitor.Wm.C68_once_partial",
    "Libmonitor.Wm.C68_weak",
    "Libmonitor.Wm.C68_dekker"
   ]
  },
  {
   "property": "C69",
   "status": "proved",
   "note": "weak definitions of the thread functions used by main.c and fork.c; the weak monitor_real_dlopen, monitor_real_dlclose, monitor_sigaction and monitor_real_pthread_sigmask are not modelled",
   "theorems": [
    "Libmonitor.Proc.C69_same",
    "Libmonitor.Proc.C69_step",
    "Libmonitor.Proc.C69_unavailable",
    "Libmonitor.Proc.C69_queries"
   ]
  },
  {
   "property": "C70",
   "status": "partial",
   "note": "missing: no exit before fini-process has returned; false (C70_overtakes)",
   "theorems": [
    "Libmonitor.Proc.C70_fini_process_once",
    "Libmonitor.Proc.C70_begin_exit_once",
    "Libmonitor.Proc.C70_order",
    "Libmonitor.Proc.C70_no_exit_before_begin_partial",
    "Libmonitor.Proc.C70_overtakes"
   ]
  },
  {
   "property": "C71",
   "status": "partial",
   "note": "Proved for Clean executions in which no thread ends with the shootdown blocked and none is ended a second time in its cleanup routine; both exceptions have a witness. The second half is proved for executions in which threads are not ended in their fini-thread (CleanCalm).",
   "theorems": [
    "Libmonitor.Proc.C71_finished_partial",
    "Libmonitor.Proc.C71_not_early_partial",
    "Libmonitor.Proc.C71_blocked",
    "Libmonitor.Proc.C71_ended_twice"
   ]
  },
  {
   "property": "C72",
   "status": "partial",
   "note": "Proved for fair executions that are orderly (see C58) and, for the part about fini-process, Clean, in which the application stops calling, and for processes not made by fork after exit processing began. Bypassing ends (monitor_real_exit, exec of an odd file, malloc failure, libc's exit after the last thread) are exceptions; one is shown to be needed.",
   "theorems": [
    "Libmonitor.Proc.C72_ends_partial",
    "Libmonitor.Proc.C72_exit_partial",
    "Libmonitor.Proc.C72_fini_partial",
    "Libmonitor.Proc.C72_real_exit"
   ]
  },
  {
   "property": "C73",
   "status": "partial",
   "note": "All executions with four words behind stinfo: parameters, order, arguments, no invented address. Exact values and main once: one program start per process. Witnesses: second call of __libc_start_main, NULL in constructors.",
   "theorems": [
    "Libmonitor.Start.C73_sound",
    "Libmonitor.Start.C73_exact_partial",
    "Libmonitor.Start.C73_early",
    "Libmonitor.Start.C73_early_static",
    "Libmonitor.Start.C73_second",
    "Libmonitor.Start.C73_bypass",
    "Libmonitor.Start.C73_short"
   ]
  },
  {
   "property": "C74",
   "status": "partial",
   "note": "Somebody gets the lock: all fair executions without handlers, forks and spurious losses of reservations. That the waiting thread gets it is false (witness C74_starves).",
   "theorems": [
    "Libmonitor.Lock.C74_progress_partial",
    "Libmonitor.Lock.C74_overtaken_partial",
    "Libmonitor.Lock.C74_starves"
   ]
  },
  {
   "property": "C75",
   "status": "partial",
   "note": "Once and first along the line of ancestors, in CleanSup executions. False for a child's own calls (C75_child) and with handlers, nested creations, a fork or an end of the thread in the gap (C75_twice, C75_before, C75_nested, C75_forked, C75_ended).",
   "theorems": [
    "Libmonitor.Proc.C75_once_first_partial",
    "Libmonitor.Proc.C75_own_partial",
    "Libmonitor.Proc.C75_twice",
    "Libmonitor.Proc.C75_before",
    "Libmonitor.Proc.C75_nested",
    "Libmonitor.Proc.C75_ended",
    "Libmonitor.Proc.C75_child",
    "Libmonitor.Proc.C75_forked"
   ]
  },
  {
   "property": "C76",
   "status": "partial",
   "note": "Exact in CleanAsk executions; with a second thread, 1 in Clean executions. False for a handler in a new child before the reset (C76_inherited) and after a fork inside pthread_create (C76_lost).",
   "theorems": [
    "Libmonitor.Proc.C76_answer_partial",
    "Libmonitor.Proc.C76_second_partial",
    "Libmonitor.Proc.C76_inherited",
    "Libmonitor.Proc.C76_lost"
   ]
  },
  {
   "property": "C77",
   "status": "partial",
   "note": "Mask: all executions; actions: those that the call found, unless a handler in the child changes them; the application's if no other call is in progress, false otherwise (C77_second)",
   "theorems": [
    "Libmonitor.SysC.C77_mask",
    "Libmonitor.SysC.C77_found_partial",
    "Libmonitor.SysC.C77_application_partial",
    "Libmonitor.SysC.C77_second"
   ]
  },
  {
   "property": "C78",
   "status": "partial",
   "note": "Script of each call, and SIGCHLD: all executions; the child never returns unless a handler leaves it by longjmp (C78_escapes)",
   "theorems": [
    "Libmonitor.SysC.C78_script",
    "Libmonitor.SysC.C78_complete",
    "Libmonitor.SysC.C78_blocked",
    "Libmonitor.SysC.C78_mask",
    "Libmonitor.SysC.C78_child_partial",
    "Libmonitor.SysC.C78_escapes"
   ]
  },
  {
   "property": "C79",
   "status": "proved",
   "note": "All interleavings, outcomes and objects. A call that is left by longjmp does not return and leaves its object behind (C79_leaked).",
   "theorems": [
    "Libmonitor.AttrC.C79_script",
    "Libmonitor.AttrC.C79_complete",
    "Libmonitor.AttrC.C79_counts",
    "Libmonitor.AttrC.C79_only_size",
    "Libmonitor.AttrC.C79_initialised",
    "Libmonitor.AttrC.C79_leaked"
   ]
  },
  {
   "property": "C80",
   "status": "partial",
   "note": "Proved for objects that are used by one call at a time, with arbitrary use of other objects. False for overlapping calls (C80_grows: unbounded), changes during a call, frames left by longjmp and children forked by other threads.",
   "theorems": [
    "Libmonitor.AttrC.C80_restored_partial",
    "Libmonitor.AttrC.C80_same_partial",
    "Libmonitor.AttrC.C80_gets_partial",
    "Libmonitor.AttrC.C80_change_lost",
    "Libmonitor.AttrC.C80_unwound",
    "Libmonitor.AttrC.C80_forked",
    "Libmonitor.AttrC.C80_grows"
   ]
  },
  {
   "property": "C81",
   "status": "proved",
   "note": "All executions in which the client's answer is the size it was told (what the default callback does): the application's objects are always what the application made of them, no size is set, and the real function gets the application's pointer. The model is AttrC: attribute functions act in one step.",
   "theorems": [
    "Libmonitor.AttrC.C81_untouched",
    "Libmonitor.AttrC.C81_passed",
    "Libmonitor.AttrC.C81_initialised"
   ]
  },
  {
   "property": "C82",
   "status": "partial",
   "note": "Exact only if no other call stores into the static array meanwhile, or if the environment has more than 248 strings; otherwise false: C82_mixed (two threads), C82_handler (a handler). In all executions: nothing that mentions LD_PRELOAD, only strings that were given to some call, no cell outside of the array.",
   "theorems": [
    "Libmonitor.EnvC.C82_exact_partial",
    "Libmonitor.EnvC.C82_large_partial",
    "Libmonitor.EnvC.C82_no_preload",
    "Libmonitor.EnvC.C82_in_bounds",
    "Libmonitor.EnvC.C82_mixed",
    "Libmonitor.EnvC.C82_handler"
   ]
  },
  {
   "property": "C83",
   "status": "partial",
   "note": "Holds if the first initialisation is over before other threads and handlers come (C83_library_first), and under weaker conditions on overlapping calls; false otherwise: the guard tests and sets in two steps (C83_twice, C83_unready, C83_wiped).",
   "theorems": [
    "Libmonitor.Once.C83_once_partial",
    "Libmonitor.Once.C83_record_partial",
    "Libmonitor.Once.C83_library_first",
    "Libmonitor.Once.C83_twice",
    "Libmonitor.Once.C83_unready",
    "Libmonitor.Once.C83_wiped",
    "Libmonitor.Once.C83_recursion"
   ]
  },
  {
   "property": "C84",
   "status": "partial",
   "note": "All executions: every answer of monitor_shootdown_signal is a valid signal. The rest holds if the first monitor_signal_init has finished before other threads and signals come; false otherwise, with four witnesses.",
   "theorems": [
    "Libmonitor.SigI.C84_valid_partial",
    "Libmonitor.SigI.C84_init_first_partial",
    "Libmonitor.SigI.C84_changes",
    "Libmonitor.SigI.C84_lost",
    "Libmonitor.SigI.C84_own",
    "Libmonitor.SigI.C84_forgotten"
   ]
  },
  {
   "property": "C85",
   "status": "proved",
   "note": "All executions of the Proc model, without hypotheses; C85_real_fork shows that the exception in the statement happens.",
   "theorems": [
    "Libmonitor.Proc.C85_sourced",
    "Libmonitor.Proc.C85_default",
    "Libmonitor.Proc.C85_real_fork"
   ]
  },
  {
   "property": "C86",
   "status": "partial",
   "note": "Account, one record per call and the bound by the number of records out: all executions of a process. That threads that ran and are gone have given their record back: executions in which threads end well (see C71), before the exit cleanup. False for failed calls of pthread_create (C86_failed: unbounded), and for threads that end with the shootdown blocked or in their init-thread callback (witnesses). C86_error_in_lock: if there is no memory for more records, a statically linked program hangs in the error exit.",
   "theorems": [
    "Libmonitor.Proc.C86_account",
    "Libmonitor.Proc.C86_one_each",
    "Libmonitor.Proc.C86_peak",
    "Libmonitor.Proc.C86_reused_partial",
    "Libmonitor.Proc.C86_failed",
    "Libmonitor.Proc.C86_error_in_lock",
    "Libmonitor.Proc.C86_blocked",
    "Libmonitor.Proc.C86_ended_early"
   ]
  },
  {
   "property": "C87",
   "status": "proved",
   "note": "All executions for the nesting; that everything ends needs threads not ended inside callbacks (the statement's condition), negative witness C87_cancelled.",
   "theorems": [
    "Libmonitor.Proc.C87_nested",
    "Libmonitor.Proc.C87_all_ended",
    "Libmonitor.Proc.C87_cancelled"
   ]
  },
  {
   "property": "C88",
   "status": "proved",
   "note": "All executions for the shape of the stack; the consequences under the statement's condition that no handler begins inside the lock, negative witness C88_in_handler. A failed malloc inside the lock (MONITOR_ERROR, statically linked programs) counts as a handler there: C86_error_in_lock.",
   "theorems": [
    "Libmonitor.Proc.C88_unlocked",
    "Libmonitor.Proc.C88_in_handler",
    "Libmonitor.Proc.C88_client_code",
    "Libmonitor.Proc.C88_not_itself"
   ]
  },
  {
   "property": "C89",
   "status": "partial",
   "note": "Proved for Clean executions with the three conditions named in the statement; each condition has a witness that it is needed (C89_forked, C89_unknown, C89_window). Missing: executions outside Clean. The answer: all executions.",
   "theorems": [
    "Libmonitor.Proc.C89_blocked_partial",
    "Libmonitor.Proc.C89_forked",
    "Libmonitor.Proc.C89_unknown",
    "Libmonitor.Proc.C89_window",
    "Libmonitor.Proc.C89_winner",
    "Libmonitor.Proc.C89_answer",
    "Libmonitor.Proc.C89_answer_child"
   ]
  },
  {
   "property": "C90",
   "status": "proved",
   "note": "C90_protected, C90_restored (no pthread_setcancelstate by foreign code inside guarded calls), C90_completes (no pthread_exit there either); witnesses that both conditions are needed and that two places of the C code are not protected (C90_cleanup, C90_begin_exit)",
   "theorems": [
    "Libmonitor.Proc.C90_protected",
    "Libmonitor.Proc.C90_restored",
    "Libmonitor.Proc.C90_completes",
    "Libmonitor.Proc.C90_cleanup",
    "Libmonitor.Proc.C90_begin_exit",
    "Libmonitor.Proc.C90_enabled_inside",
    "Libmonitor.Proc.C90_exit_inside"
   ]
  },
  {
   "property": "C91",
   "status": "partial",
   "note": "Proved for Clean executions in which threads do not end a second time, before their start routine or with monitor_block_shootdown in effect (each needed: C91_twice, C91_early, C91_blocked), without broadcasts during the exit cleanup and without calls that go on in a child of a fork inside them",
   "theorems": [
    "Libmonitor.Proc.C91_compare_partial",
    "Libmonitor.Proc.C91_same_partial",
    "Libmonitor.Proc.C91_callbacks_partial",
    "Libmonitor.Proc.C91_blocked",
    "Libmonitor.Proc.C91_early",
    "Libmonitor.Proc.C91_twice"
   ]
  },
  {
   "property": "C92",
   "status": "partial",
   "note": "C92_reasons, C92_ends, C92_none for all executions; that pthread_exit counts in the initial thread only: Clean executions (C92_initial_partial). Witnesses: an exit inside the C library ends the process without exit callbacks (C92_err), pthread_exit in the initial thread delivers them while the process goes on (C92_goes_on)",
   "theorems": [
    "Libmonitor.Proc.C92_reasons",
    "Libmonitor.Proc.C92_initial_partial",
    "Libmonitor.Proc.C92_ends",
    "Libmonitor.Proc.C92_none",
    "Libmonitor.Proc.C92_err",
    "Libmonitor.Proc.C92_goes_on"
   ]
  }
 ]
}