{
 "claims": [
  {
   "property": "C01",
   "status": "proved",
   "theorems": [
    "Log4g.C01_levelFrom"
   ],
   "note": "For every iteration order of the name table."
  },
  {
   "property": "C02",
   "status": "proved",
   "theorems": [
    "Log4g.C02_names_roundtrip"
   ],
   "note": ""
  },
  {
   "property": "C03",
   "status": "proved",
   "theorems": [
    "Log4g.C03_threshold"
   ],
   "note": "The agreement of the XxxEnabled methods with the logging methods is stated as: not enabled gives no delivery, enabled with own outputs gives delivery to exactly these."
  },
  {
   "property": "C04",
   "status": "partial",
   "theorems": [
    "Log4g.C04_off_refuted",
    "Log4g.C04_off_partial"
   ],
   "note": "The code violates the property: Printf with level Off (or a number above it) passes the gate. The partial theorem covers every level below Off and every other method."
  },
  {
   "property": "C05",
   "status": "proved",
   "theorems": [
    "Log4g.C05_hierarchy",
    "Log4g.C05_parent_unique"
   ],
   "note": ""
  },
  {
   "property": "C06",
   "status": "proved",
   "theorems": [
    "Log4g.C06_one_logger_per_name"
   ],
   "note": ""
  },
  {
   "property": "C07",
   "status": "proved",
   "theorems": [
    "Log4g.C07_level_inheritance",
    "Log4g.C07_path_unique",
    "Log4g.C07_unset"
   ],
   "note": ""
  },
  {
   "property": "C08",
   "status": "proved",
   "theorems": [
    "Log4g.C08_output_inheritance"
   ],
   "note": ""
  },
  {
   "property": "C09",
   "status": "partial",
   "theorems": [
    "Log4g.C09_own_level_refuted",
    "Log4g.C09_own_level_partial",
    "Log4g.C09_gates_partial"
   ],
   "note": "The code violates the property: the gates of the ancestors apply too. C09_gates_partial is an exact characterisation."
  },
  {
   "property": "C10",
   "status": "partial",
   "theorems": [
    "Log4g.C10_configured_refuted",
    "Log4g.C10_configured_partial"
   ],
   "note": "The code violates the property: a logger first made as the parent of another one is never configured. The partial theorem covers every logger that does not exist yet, the root logger included."
  },
  {
   "property": "C11",
   "status": "proved",
   "theorems": [
    "Log4g.C11_attribution"
   ],
   "note": ""
  },
  {
   "property": "C12",
   "status": "partial",
   "theorems": [
    "Log4g.C12_fields_refuted",
    "Log4g.C12_fields_partial",
    "Log4g.C12_inherited_partial"
   ],
   "note": "The code violates the property: fields are lost when a message is delivered by an ancestor. The partial theorems are exact: fields arrive from loggers with own outputs, and never from others."
  },
  {
   "property": "C13",
   "status": "proved",
   "theorems": [
    "Log4g.C13_call_site"
   ],
   "note": ""
  },
  {
   "property": "C14",
   "status": "partial",
   "theorems": [
    "Log4g.C14_printf_site_refuted",
    "Log4g.C14_printf_site_partial"
   ],
   "note": "The code violates the property: a direct Printf call reports the caller of the caller. The partial theorem says which frame is reported."
  },
  {
   "property": "C15",
   "status": "proved",
   "theorems": [
    "Log4g.C15_caller_info"
   ],
   "note": ""
  },
  {
   "property": "C16",
   "status": "partial",
   "theorems": [
    "Log4g.C16_no_panic_refuted",
    "Log4g.C16_no_panic_partial"
   ],
   "note": "The code violates the property: a field named __caller_info makes a log call panic. The partial theorem is an exact characterisation."
  },
  {
   "property": "C17",
   "status": "proved",
   "theorems": [
    "Log4g.C17_set_config"
   ],
   "note": ""
  },
  {
   "property": "C18",
   "status": "partial",
   "theorems": [
    "Log4g.C18_duplicate_loggers_refuted",
    "Log4g.C18_duplicate_loggers_partial"
   ],
   "note": "The code violates the property: the map of seen logger names is never filled. The partial theorem says the first entry counts and later ones do nothing."
  },
  {
   "property": "C19",
   "status": "partial",
   "theorems": [
    "Log4g.C19_load_errors_refuted",
    "Log4g.C19_decoder_errors_refuted",
    "Log4g.C19_load_partial"
   ],
   "note": "The code violates the property: the error of the decoder and of an unknown extension is dropped. The partial theorem says exactly what is loaded."
  },
  {
   "property": "C20",
   "status": "partial",
   "theorems": [
    "Log4g.C20_load_file_refuted",
    "Log4g.C20_load_file_partial"
   ],
   "note": "The code violates the property: a readable file without extension panics. The partial theorem is an exact characterisation."
  },
  {
   "property": "C21",
   "status": "proved",
   "theorems": [
    "Log4g.C21_reconfigure"
   ],
   "note": ""
  },
  {
   "property": "C22",
   "status": "proved",
   "theorems": [
    "Log4g.C22_untouched"
   ],
   "note": ""
  },
  {
   "property": "C23",
   "status": "proved",
   "theorems": [
    "Log4g.C23_one_instance"
   ],
   "note": ""
  },
  {
   "property": "C24",
   "status": "partial",
   "theorems": [
    "Log4g.C24_redefine_refuted",
    "Log4g.C24_redefine_partial"
   ],
   "note": "The code violates the property: instances are cached by name for ever. The partial theorem says which definition an instance has."
  },
  {
   "property": "C25",
   "status": "proved",
   "theorems": [
    "Log4g.C25_last_config"
   ],
   "note": "Interleavings at the granularity of the two locks."
  },
  {
   "property": "C26",
   "status": "proved",
   "theorems": [
    "Log4g.C26_root_fallback"
   ],
   "note": ""
  },
  {
   "property": "C27",
   "status": "proved",
   "theorems": [
    "Log4g.C27_logger_outputs"
   ],
   "note": ""
  },
  {
   "property": "C28",
   "status": "proved",
   "theorems": [
    "Log4g.C28_ranges"
   ],
   "note": "Includes the case of overlong digit runs, which give the maximum."
  },
  {
   "property": "C29",
   "status": "proved",
   "theorems": [
    "Log4g.C29_file_mode",
    "Log4g.C29_rolling"
   ],
   "note": "Against a grammar of Go integer literals, for both generations of strconv."
  },
  {
   "property": "C30",
   "status": "partial",
   "theorems": [
    "Log4g.C30_size_units_refuted",
    "Log4g.C30_size_units_partial"
   ],
   "note": "The code violates the property: the number before a unit is ignored. The partial theorem says what sizes mean."
  },
  {
   "property": "C31",
   "status": "partial",
   "theorems": [
    "Log4g.C31_size_positive_refuted",
    "Log4g.C31_size_positive_partial"
   ],
   "note": "The code violates the property on overlong numbers with a unit; the partial theorem is an exact characterisation."
  },
  {
   "property": "C32",
   "status": "proved",
   "theorems": [
    "Log4g.C32_threshold"
   ],
   "note": ""
  },
  {
   "property": "C33",
   "status": "proved",
   "theorems": [
    "Log4g.C33_lossless"
   ],
   "note": "Also: the pieces are the leftmost, there shortest verbs, and unique."
  },
  {
   "property": "C34",
   "status": "proved",
   "theorems": [
    "Log4g.C34_roundtrip"
   ],
   "note": ""
  },
  {
   "property": "C35",
   "status": "proved",
   "theorems": [
    "Log4g.C35_rejected"
   ],
   "note": ""
  },
  {
   "property": "C36",
   "status": "proved",
   "theorems": [
    "Log4g.C36_line"
   ],
   "note": "For events that carry the caller information their layout needs, as logged events do (C76)."
  },
  {
   "property": "C37",
   "status": "proved",
   "theorems": [
    "Log4g.C37_verbatim"
   ],
   "note": ""
  },
  {
   "property": "C38",
   "status": "partial",
   "theorems": [
    "Log4g.C38_message_refuted",
    "Log4g.C38_message_partial"
   ],
   "note": "False without arguments: Debugf(\"100%%\") prints both percent signs; with an empty format Sprint is used. The partial theorem gives all cases."
  },
  {
   "property": "C39",
   "status": "proved",
   "theorems": [
    "Log4g.C39_fields",
    "Log4g.C39_all_builtins",
    "Log4g.C39_builtins"
   ],
   "note": ""
  },
  {
   "property": "C40",
   "status": "proved",
   "theorems": [
    "Log4g.C40_flag"
   ],
   "note": ""
  },
  {
   "property": "C41",
   "status": "proved",
   "theorems": [
    "Log4g.C41_split"
   ],
   "note": ""
  },
  {
   "property": "C42",
   "status": "proved",
   "theorems": [
    "Log4g.C42_sync"
   ],
   "note": ""
  },
  {
   "property": "C43",
   "status": "proved",
   "theorems": [
    "Log4g.C43_syslog"
   ],
   "note": ""
  },
  {
   "property": "C44",
   "status": "proved",
   "theorems": [
    "Log4g.C44_queue"
   ],
   "note": ""
  },
  {
   "property": "C45",
   "status": "proved",
   "theorems": [
    "Log4g.C45_fifo",
    "Log4g.C45_fifo_queue"
   ],
   "note": ""
  },
  {
   "property": "C46",
   "status": "proved",
   "theorems": [
    "Log4g.C46_batch"
   ],
   "note": ""
  },
  {
   "property": "C47",
   "status": "partial",
   "theorems": [
    "Log4g.C47_flushed_refuted",
    "Log4g.C47_two_closes_refuted",
    "Log4g.C47_flushed_partial",
    "Log4g.C47_not_begun"
   ],
   "note": "The code violates the property: the wait group is incremented inside the worker, so a Close before the worker has begun does not wait; and a second Close may return while what it should flush is left behind another request. The partial theorem covers a Close called while no other request is queued whose wait ends after the worker has begun; if it ends before, nothing has been written by then."
  },
  {
   "property": "C48",
   "status": "proved",
   "theorems": [
    "Log4g.C48_send_after_close"
   ],
   "note": ""
  },
  {
   "property": "C49",
   "status": "proved",
   "theorems": [
    "Log4g.C49_close_again"
   ],
   "note": ""
  },
  {
   "property": "C50",
   "status": "partial",
   "theorems": [
    "Log4g.C50_send_panics_refuted",
    "Log4g.C50_close_panics_refuted",
    "Log4g.C50_panics_partial"
   ],
   "note": "The code violates the property: send on a closed channel and close of a closed channel. The partial theorem: a panic needs a Close of another goroutine that returns during the call."
  },
  {
   "property": "C51",
   "status": "partial",
   "theorems": [
    "Log4g.C51_close_refuted",
    "Log4g.C51_close_partial"
   ],
   "note": "The code violates the property when two Close calls overlap: one of them can only panic. The partial theorem covers a single closing goroutine, and that several all return or panic."
  },
  {
   "property": "C52",
   "status": "proved",
   "theorems": [
    "Log4g.C52_same_bytes"
   ],
   "note": ""
  },
  {
   "property": "C53",
   "status": "partial",
   "theorems": [
    "Log4g.C53_no_formatter_refuted",
    "Log4g.C53_no_formatter_partial"
   ],
   "note": "The code violates the property: the worker calls a nil formatter. The partial theorem says nothing is written and which events are harmless."
  },
  {
   "property": "C54",
   "status": "proved",
   "theorems": [
    "Log4g.C54_size_rolling_gap_free",
    "Log4g.C54_messages"
   ],
   "note": "As long as removals succeed, backup numbers are distinct and stay within 64 bits. Every other call may fail at any point, processes may die and be restarted."
  },
  {
   "property": "C55",
   "status": "proved",
   "theorems": [
    "Log4g.C55_message_in_one_file",
    "Log4g.C55_written_whole",
    "Log4g.C55_time"
   ],
   "note": "Time rolling: where the message is in the end, under the conditions of C67."
  },
  {
   "property": "C56",
   "status": "proved",
   "theorems": [
    "Log4g.C56_at_most_max_backups"
   ],
   "note": "For a positive configured number and successful removals."
  },
  {
   "property": "C57",
   "status": "proved",
   "theorems": [
    "Log4g.C57_file_sizes"
   ],
   "note": "For a single writer that starts without a log file (see C63 and C100 for restarts)."
  },
  {
   "property": "C58",
   "status": "partial",
   "theorems": [
    "Log4g.C58_new_name_refuted",
    "Log4g.C58_new_name_partial"
   ],
   "note": "The code violates the property when the highest number is the largest 64-bit integer: the next number wraps around. The partial theorem covers all other numbers."
  },
  {
   "property": "C59",
   "status": "proved",
   "theorems": [
    "Log4g.C59_foreign_files_untouched"
   ],
   "note": ""
  },
  {
   "property": "C60",
   "status": "proved",
   "theorems": [
    "Log4g.C60_backup_names"
   ],
   "note": ""
  },
  {
   "property": "C61",
   "status": "proved",
   "theorems": [
    "Log4g.C61_crash_consistent",
    "Log4g.C54_messages"
   ],
   "note": "Under the conditions of C54."
  },
  {
   "property": "C62",
   "status": "partial",
   "theorems": [
    "Log4g.C62_size_transient_refuted",
    "Log4g.C62_time_transient_refuted",
    "Log4g.C62_time_open_refuted",
    "Log4g.C62_size_transient_partial",
    "Log4g.C62_time_transient_partial",
    "Log4g.C62_time_next_partial"
   ],
   "note": "The code violates the property: a roll that fails before a new file is open leaves the writer without a file, and it then tries to close that file for ever. The partial theorem is exact for size rolling. For time rolling, C62_time_next_partial is exact as long as the clock does not go back to a period it has shown before; C62_time_transient_partial covers writes in the same period."
  },
  {
   "property": "C63",
   "status": "proved",
   "theorems": [
    "Log4g.C63_restart_appends"
   ],
   "note": ""
  },
  {
   "property": "C64",
   "status": "proved",
   "theorems": [
    "Log4g.C64_permissions"
   ],
   "note": "Backups: when the change of permissions succeeds (the code ignores its failure)."
  },
  {
   "property": "C65",
   "status": "proved",
   "theorems": [
    "Log4g.C65_serialised",
    "Log4g.C65_quiescent",
    "Log4g.C65_gap_free",
    "Log4g.C65_no_deadlock"
   ],
   "note": "C65_gap_free under the conditions of C54."
  },
  {
   "property": "C66",
   "status": "proved",
   "theorems": [
    "Log4g.C66_rolls_at_period_change",
    "Log4g.C66_empty_pattern"
   ],
   "note": "The roll takes place at the first write whose look at the clock gives another period name; with an empty pattern never."
  },
  {
   "property": "C67",
   "status": "partial",
   "theorems": [
    "Log4g.C67_time_rolling_gap_free_refuted",
    "Log4g.C67_time_rolling_gap_free_partial",
    "Log4g.C67_messages_partial"
   ],
   "note": "The code violates the property when the period names repeat: an older backup is overwritten. The partial theorem covers period names that do not repeat, a clock that does not go backwards, successful removals and older backups from earlier periods."
  },
  {
   "property": "C68",
   "status": "partial",
   "theorems": [
    "Log4g.C68_backup_period_refuted",
    "Log4g.C68_backup_period_partial"
   ],
   "note": "The code violates the property after a restart and when the clock moves between its two readings in a roll. The partial theorem covers a single writer that starts with an empty log file, measured by the clock reading before each write."
  },
  {
   "property": "C69",
   "status": "partial",
   "theorems": [
    "Log4g.C69_idle_refuted",
    "Log4g.C69_idle_size_partial",
    "Log4g.C69_idle_time_partial"
   ],
   "note": "The code violates the property: the empty flushes of an idle asynchronous output make empty files, and with the limit reached they roll and drop backups. The partial theorems say what idle flushes can do."
  },
  {
   "property": "C70",
   "status": "partial",
   "theorems": [
    "Log4g.C70_archived_refuted",
    "Log4g.C70_archived_partial",
    "Log4g.C70_nothing_lost_partial",
    "Log4g.C70_nothing_lost_time_partial"
   ],
   "note": "The code violates the property for every configuration: the archive path is the log directory itself. The partial theorems cover a writer with an archive file when nothing fails."
  },
  {
   "property": "C71",
   "status": "proved",
   "theorems": [
    "Log4g.C71_copy",
    "Log4g.C71_copy_any",
    "Log4g.C71_gzip"
   ],
   "note": "Archives are lists of entries; the bytes of the file formats are not modelled. Directories are left out when a tar archive is copied to a tar archive directly, and files without name get that of the buffer file otherwise; C71_copy_any says so."
  },
  {
   "property": "C72",
   "status": "proved",
   "theorems": [
    "Log4g.C72_archive_atomic",
    "Log4g.C72_archive_grows"
   ],
   "note": "Archives are lists of entries; the file formats are not modelled."
  },
  {
   "property": "C73",
   "status": "proved",
   "theorems": [
    "Log4g.C73_closed",
    "Log4g.C73_any_moment",
    "Log4g.C73_crash",
    "Log4g.C73_sync",
    "Log4g.C73_configured"
   ],
   "note": "Under the conditions of C54 and as long as no call to the operating system fails (a failed write is ignored by the output and its batch is lost, see C79)."
  },
  {
   "property": "C74",
   "status": "proved",
   "theorems": [
    "Log4g.C74_no_deadlock"
   ],
   "note": ""
  },
  {
   "property": "C75",
   "status": "proved",
   "theorems": [
    "Log4g.C75_concurrent_get"
   ],
   "note": ""
  },
  {
   "property": "C76",
   "status": "proved",
   "theorems": [
    "Log4g.C76_logged_line"
   ],
   "note": ""
  },
  {
   "property": "C77",
   "status": "partial",
   "theorems": [
    "Log4g.C77_concurrent_refuted",
    "Log4g.C77_concurrent_partial"
   ],
   "note": "The code violates the property for memory outputs, whose buffer has no lock. The partial theorem covers writers with a lock of their own."
  },
  {
   "property": "C78",
   "status": "partial",
   "theorems": [
    "Log4g.C78_writes_succeed_refuted",
    "Log4g.C78_writes_succeed_partial"
   ],
   "note": "The code violates the property for sizes that are overlong numbers with a unit (C31): the limit is negative and no write succeeds. The partial theorem covers all other configurations."
  },
  {
   "property": "C79",
   "status": "partial",
   "theorems": [
    "Log4g.C79_lines_lost_refuted",
    "Log4g.C79_lines_lost_partial"
   ],
   "note": "The code violates the property: outputs ignore the result of the write and do not try again. The partial theorem says that nothing else is lost."
  },
  {
   "property": "C80",
   "status": "partial",
   "theorems": [
    "Log4g.C80_reread_refuted",
    "Log4g.C80_reread_partial"
   ],
   "note": "The code violates the property for a compressed tar archive without files, which is taken for a compressed file and yields 1024 zeros as an additional file. The partial theorem covers all others."
  },
  {
   "property": "C81",
   "status": "proved",
   "theorems": [
    "Log4g.C81_default"
   ],
   "note": "fmt, time and os are oracles (structure Lib)."
  },
  {
   "property": "C82",
   "status": "proved",
   "theorems": [
    "Log4g.C82_console"
   ],
   "note": "For programs that do not replace the types registered by init and whose own formatters and outputs ask for one of the three details of caller information."
  },
  {
   "property": "C83",
   "status": "partial",
   "theorems": [
    "Log4g.C83_reconfigure_refuted",
    "Log4g.C83_reconfigure_partial"
   ],
   "note": "The code violates the property: a log call takes no lock and reads level, outputs and caller-information flag separately (level and outputs twice). The partial theorem says what holds in every interleaving, and that a single SetLevel or SetOutputs to something takes effect at one moment as far as the choice of outputs goes. Reads and writes of fields are atomic in the model."
  },
  {
   "property": "C84",
   "status": "proved",
   "theorems": [
    "Log4g.C84_log_ends"
   ],
   "note": "The outputs are outside: Send is one step."
  },
  {
   "property": "C85",
   "status": "proved",
   "theorems": [
    "Log4g.C85_any_moment"
   ],
   "note": "The library's own outputs; programs that do not replace the types init registers. Calls that change the configuration are one step."
  },
  {
   "property": "C86",
   "status": "proved",
   "theorems": [
    "Log4g.C86_nothing_lost",
    "Log4g.C86_sync",
    "Log4g.C86_syslog"
   ],
   "note": "Send of a synchronous output is one step (for a memory output used by several goroutines it is not, see C77), and its writer is taken to write (see C79 for rolling files)."
  },
  {
   "property": "C87",
   "status": "partial",
   "theorems": [
    "Log4g.C87_close_flushes_refuted",
    "Log4g.C87_close_flushes_partial"
   ],
   "note": "The code violates the property: Close does not wait for a worker that has not begun. The partial theorem covers outputs whose worker had begun when Close was done waiting for it and that were not closed before."
  },
  {
   "property": "C88",
   "status": "partial",
   "theorems": [
    "Log4g.C88_panics_refuted",
    "Log4g.C88_panics_partial"
   ],
   "note": "The code violates the property: a log call panics when Close of the manager closes the queue of an output meanwhile. The partial theorem says that there is no other panic once a log call has found its outputs."
  },
  {
   "property": "C89",
   "status": "proved",
   "theorems": [
    "Log4g.C89_close_returns"
   ],
   "note": ""
  },
  {
   "property": "C90",
   "status": "partial",
   "theorems": [
    "Log4g.C90_after_close_refuted",
    "Log4g.C90_after_close_partial"
   ],
   "note": "The code violates the property: Close of a synchronous output does nothing. The partial theorem is about asynchronous outputs."
  },
  {
   "property": "C91",
   "status": "partial",
   "theorems": [
    "Log4g.C91_reconfigured_refuted",
    "Log4g.C91_reconfigured_partial"
   ],
   "note": "The code violates the property: the manager keeps the closed outputs under their names. The partial theorem says so in general, and that outputs under new names work."
  },
  {
   "property": "C92",
   "status": "proved",
   "theorems": [
    "Log4g.C92_log_returns"
   ],
   "note": ""
  },
  {
   "property": "C93",
   "status": "partial",
   "theorems": [
    "Log4g.C93_neighbours_refuted",
    "Log4g.C93_as_if_alone_partial",
    "Log4g.C93_neighbours_partial",
    "Log4g.C93_neighbours_time_partial",
    "Log4g.C93_others_untouched"
   ],
   "note": "The code violates the property when the file name of one output looks like a backup of another (log and log.5). The partial theorems assume that no name concerns two of the writers, nor one of them and the directory .log4g_tmp which archiving makes."
  },
  {
   "property": "C94",
   "status": "partial",
   "theorems": [
    "Log4g.C94_same_file_refuted",
    "Log4g.C94_same_file_partial",
    "Log4g.C94_one_home_partial"
   ],
   "note": "The code violates the property: after a roll the other writer goes on writing to the renamed and later removed file. Of the partial theorems, the first: as long as nobody rolls, each file holds what it held and then an interleaving of what its writers wrote, in their order. The second, whatever is rolled: every piece goes to one file, whole and in order, and it is lost only with a file that is removed or replaced."
  },
  {
   "property": "C95",
   "status": "proved",
   "theorems": [
    "Log4g.C95_on_disk",
    "Log4g.C95_sync",
    "Log4g.C95_closed",
    "Log4g.C95_faults"
   ],
   "note": "That the files keep out of each other's way and that Close finds a worker that has begun is part of the property (C93 and C87 say what happens otherwise). Calls made for archives may fail (with every configuration they do, C70). Only the program changes the directories."
  },
  {
   "property": "C96",
   "status": "proved",
   "theorems": [
    "Log4g.C96_any_run",
    "Log4g.C96_log_returns",
    "Log4g.C96_close_returns"
   ],
   "note": "That something can happen; C97 is about what will happen under a fair scheduler."
  },
  {
   "property": "C97",
   "status": "proved",
   "theorems": [
    "Log4g.C97_log_returns",
    "Log4g.C97_send_returns",
    "Log4g.C97_close_returns",
    "Log4g.C97_lock_free"
   ],
   "note": "The program does not panic (C88 says when it does). Close of the manager is considered from when it has the lock."
  },
  {
   "property": "C98",
   "status": "proved",
   "theorems": [
    "Log4g.C98_written",
    "Log4g.C98_on_disk"
   ],
   "note": "The program does not panic. The ticker is taken to fire again and again; how long that takes is not modelled."
  },
  {
   "property": "C99",
   "status": "proved",
   "theorems": [
    "Log4g.C99_async",
    "Log4g.C99_sync",
    "Log4g.C99_syslog",
    "Log4g.C95_on_disk",
    "Log4g.C95_sync"
   ],
   "note": "A call begins when the library has read the logger, which is not before it is made. Two events of one call that go to one output are in the order in which it sends them. C95_on_disk, C95_sync, C95_closed and C98_on_disk say it of the files (`InTime`)."
  },
  {
   "property": "C100",
   "status": "partial",
   "theorems": [
    "Log4g.C100_restarts_refuted",
    "Log4g.C100_never_rolls",
    "Log4g.C100_restarts_partial"
   ],
   "note": "The code violates the property: the first write of a new writer never rolls, because it compares the limit with a size of 0 before it opens the file; so a program that starts anew for each message lets the file grow without bound (C100_never_rolls, for both kinds of rolling). The partial theorem gives the bound that holds: one more message for each new start."
  },
  {
   "property": "C101",
   "status": "partial",
   "theorems": [
    "Log4g.C101_after_signal_refuted",
    "Log4g.C101_panics_refuted",
    "Log4g.C101_before_signal_partial",
    "Log4g.C101_sync_partial",
    "Log4g.C101_panics_partial"
   ],
   "note": "The code violates the property: the goroutine that init starts closes the manager when a signal comes, though the program goes on (the library is told of the signal, so it does not end the program); asynchronous outputs then drop every event, and a call under way may panic. The partial theorems: nothing is lost and nothing panics before the first signal; synchronous outputs go on."
  },
  {
   "property": "C102",
   "status": "proved",
   "theorems": [
    "Log4g.C102_flushes",
    "Log4g.C102_eventually",
    "Log4g.C102_closed",
    "Log4g.C102_once"
   ],
   "note": "C102_flushes says that the library can get there, C102_eventually that it does under a scheduler that is fair to it; the program is taken not to have panicked (C101). That Close finds a worker that has begun is part of C102_closed (C87 says what happens otherwise)."
  },
  {
   "property": "C103",
   "status": "proved",
   "theorems": [
    "Log4g.C103_options"
   ],
   "note": "What size strings mean is C30 and C31, permissions C29. The README gives rf.1.log as an example of prefix mode; the code makes 1.rf.log (C54)."
  },
  {
   "property": "C104",
   "status": "partial",
   "theorems": [
    "Log4g.C104_as_logged_refuted",
    "Log4g.C104_unchanged_partial",
    "Log4g.C104_moment_partial",
    "Log4g.C104_sync_partial"
   ],
   "note": "The code violates the property: the worker of an asynchronous output formats the event, so what a pointer, slice or map refers to shows its later content. The partial theorems: it holds if the program leaves alone what is on its way; in any case each line shows the memory of one moment between the call and now; synchronous outputs have the property."
  },
  {
   "property": "C105",
   "status": "partial",
   "theorems": [
    "Log4g.C105_refused_refuted",
    "Log4g.C105_copies_partial",
    "Log4g.C105_existing_partial"
   ],
   "note": "The code violates the property: the manager keeps the pointer, so a changed object configures the loggers asked for next, even if SetConfig refuses it. The partial theorems: a program that leaves the object alone until another one has been accepted may as well pass copies; in any case the loggers there are keep their level and outputs until the next SetConfig."
  },
  {
   "property": "C106",
   "status": "partial",
   "theorems": [
    "Log4g.C106_lines_refuted",
    "Log4g.C106_stuck",
    "Log4g.C106_order_partial",
    "Log4g.C106_room_partial",
    "Log4g.C106_quiet_partial",
    "Log4g.C106_sync_partial"
   ],
   "note": "The code violates the property: the worker of an asynchronous output formats, so it sends to the queue only it empties; if the queue is full the output and all who send to it stop for ever (C106_stuck, for every program; C106_lines_refuted, for every queue size). The partial theorems: up to then nothing is lost, duplicated or reordered; with room in the queue the worker gets on; if formatting logs nothing the output is as in Async; synchronous outputs write the inner lines first, to any depth."
  },
  {
   "property": "C107",
   "status": "partial",
   "theorems": [
    "Log4g.C107_others_refuted",
    "Log4g.C107_unset_partial",
    "Log4g.C107_kept_partial",
    "Log4g.C107_sound_partial"
   ],
   "note": "The code violates the first half: one output that cannot be made takes the level and all other outputs from the logger, and SetConfig does not report it. The partial theorems: such a logger, if new, has neither level nor outputs of its own (so its messages go where its parent sends them, C07 and C08), if it exists it stays as it is; the second half holds."
  },
  {
   "property": "C108",
   "status": "partial",
   "theorems": [
    "Log4g.C108_given_refuted",
    "Log4g.C108_copies_partial",
    "Log4g.C108_rest_partial",
    "Log4g.C108_present_partial"
   ],
   "note": "The code violates the property: the logger keeps the slice, so assigning to an element changes its outputs, without the caller information the new one wants. The partial theorems: a program that leaves alone the slices loggers have may as well pass copies; in any case all but the outputs of loggers is as with copies, and a logger that was given a slice has what is in it at present."
  },
  {
   "property": "C109",
   "status": "proved",
   "theorems": [
    "Log4g.C109_outputs",
    "Log4g.C109_formatters",
    "Log4g.C109_unregistered"
   ],
   "note": "Creators may answer differently each time they are called. That an output then stays, whatever is registered later, is C23."
  },
  {
   "property": "C110",
   "status": "partial",
   "theorems": [
    "Log4g.C110_creators_refuted",
    "Log4g.C110_outputs_refuted",
    "Log4g.C110_for_good",
    "Log4g.C110_uses_partial",
    "Log4g.C110_logging_partial",
    "Log4g.C110_needed_partial"
   ],
   "note": "The code violates the property: creators and Close of outputs are called while the lock of the manager (and of the factory, in GetLogger and SetConfig) is held, so a call they make waits for ever, and with it every later call that needs the lock (C110_for_good). The partial theorems: code that makes no such call does not block anything; code that only logs makes no difference at all; and a call that returns has called no creator that calls the manager."
  },
  {
   "property": "C111",
   "status": "partial",
   "theorems": [
    "Log4g.C111_root_refuted",
    "Log4g.C111_close_refuted",
    "Log4g.C111_logger_refuted",
    "Log4g.C111_recovers_partial"
   ],
   "note": "The code violates the property: a panic while the root logger is made leaves a root logger that is in no map, with the level Off and no outputs, for ever; a panic of Close of an output leaves the manager locked for ever; a logger whose creation panicked stays without its entry when it is obtained again. The partial theorem: if a logger had been obtained before, and no Close panicked, setting a configuration gives every logger its entry."
  },
  {
   "property": "C112",
   "status": "proved",
   "theorems": [
    "Log4g.C112_size",
    "Log4g.C112_time",
    "Log4g.C112_gap"
   ],
   "note": "For size rolling, as long as the numbers of backups stay within 64 bits; for time rolling, under the conditions of C67 on the clock and the pattern. C112_gap is a run in which the whole directory, unlike its newest files, has a gap, so the condition of C54 that removals succeed is needed."
  },
  {
   "property": "C113",
   "status": "proved",
   "theorems": [
    "Log4g.C113_rolls",
    "Log4g.C113_bytes",
    "Log4g.C113_time",
    "Log4g.C113_exact",
    "Log4g.C113_async",
    "Log4g.C113_closed",
    "Log4g.C113_sync",
    "Log4g.C113_program",
    "Log4g.C113_program_async",
    "Log4g.C113_program_sync",
    "Log4g.C113_program_closed"
   ],
   "note": "For size rolling, as long as the numbers of backups stay within 64 bits; for time rolling, under the conditions of C67 on the clock and the pattern. C113_exact is a run with one roll more after which the message is gone. C113_async, C113_closed and C113_sync follow an event from being sent to an output with a size-rolling writer to the files. The C113_program theorems are about whole programs, with any number of outputs that share directories but no names."
  },
  {
   "property": "C114",
   "status": "partial",
   "theorems": [
    "Log4g.C114_sync",
    "Log4g.C114_syslog",
    "Log4g.C114_async_refuted",
    "Log4g.C114_nil_refuted",
    "Log4g.C114_async_partial",
    "Log4g.C114_idle_partial"
   ],
   "note": "Holds for synchronous and syslog outputs. The code violates it for asynchronous outputs: the worker formats a queued event with the formatter it finds when it takes the event, and panics if that is nil. The partial theorems: the texts are those of the formatter set last when the worker took the event; of the one set last when it was queued, if formatters are set only while nothing is queued."
  },
  {
   "property": "C115",
   "status": "partial",
   "theorems": [
    "Log4g.C115_late_formatter_refuted",
    "Log4g.C115_formatters_partial"
   ],
   "note": "The code violates the property: whether caller information is wanted is asked of the outputs in SetOutputs only, so a formatter that is set on an output which a logger has already gets events without it and prints a file of the library. The partial theorem: it holds for outputs that all loggers having them were given after the formatter was set."
  },
  {
   "property": "C116",
   "status": "proved",
   "theorems": [
    "Log4g.C116_each_atomic",
    "Log4g.C116_nothing_lost",
    "Log4g.C116_nothing_lost_time"
   ],
   "note": "Only code in the package itself (as its tests) can ask for an archive per backup; no configuration does. Archives are lists of entries, the file formats are not modelled; the archive directory is taken to be another than the log directory. The second part for size rolling as long as the numbers of backups stay within 64 bits; for time rolling under the conditions of C67."
  },
  {
   "property": "C117",
   "status": "partial",
   "theorems": [
    "Log4g.C117_sync_partial",
    "Log4g.C117_async_partial",
    "Log4g.C117_others_refuted",
    "Log4g.C117_async_refuted"
   ],
   "note": "False. The outputs that come after the one that panics do not get the event (C117_others_refuted); a formatter of an asynchronous output that panics ends the program, with other events unwritten (C117_async_refuted). Proved: outputs that are not asynchronous get every event but those over which they, or an output before them in the same call, panic, and the caller sees the panic; an asynchronous output is as usual as long as its formatter does not panic, and when it does, all events before it are written but for fewer than a batch."
  },
  {
   "property": "C118",
   "status": "partial",
   "theorems": [
    "Log4g.C118_names_partial",
    "Log4g.C118_start_partial",
    "Log4g.C118_gap_free_partial",
    "Log4g.C118_fixed_zone",
    "Log4g.C118_one_period_partial",
    "Log4g.C118_summer_time_refuted",
    "Log4g.C118_no_year_refuted"
   ],
   "note": "The code violates the property: where clocks are put back at the end of summer time, names down to the minute come back and the roll overwrites a backup (C118_summer_time_refuted); with a pattern that does not show the year, backups of December pass for newer than those of January, which are removed first (C118_no_year_refuted). Proved for patterns with all fields from the year down (numbers with leading zeros, in any order and with any separators), in the years 0 to 9999, with package time modelled after Go 1.12 for such patterns: the names, and what is in a backup (within one run of the program, as C68), in any time zone; the gap-free log (any history) in time zones whose clocks are not put back into a period that is over and whose offsets differ by less than a period: all patterns where the offset never changes (C118_fixed_zone), daily patterns also with summer time (cet_changes and cet_never show it for an example)."
  },
  {
   "property": "C119",
   "status": "proved",
   "theorems": [
    "Log4g.C119_found_by_time",
    "Log4g.C119_where",
    "Log4g.C119_calendar",
    "Log4g.C119_calendar_where"
   ],
   "note": "C119_found_by_time and C119_where are for any library of names whose periods grow (Periods); C119_calendar and C119_calendar_where for the calendar, with the conditions of C118: patterns with all fields from the year down, time zones whose clocks are not put back into a period that is over. A writer that is started again takes the log file it finds for one of the present period, so a backup may also hold what was written in earlier periods (C68); the property says so."
  },
  {
   "property": "C120",
   "status": "partial",
   "theorems": [
    "Log4g.C120_writes_partial",
    "Log4g.C120_calendar",
    "Log4g.C120_no_file_refuted",
    "Log4g.C120_slash_refuted",
    "Log4g.C120_directory_refuted"
   ],
   "note": "The code violates the property in three ways, each stated for all such configurations: without the option file, or with the path of a directory, every write fails (C120_no_file_refuted); with a time pattern whose names have slashes no backup is ever made and the first message of every new period is lost (C120_slash_refuted); with size rolling, a directory that has the name of the next backup makes all writes fail for good once the file is full (C120_directory_refuted). Examples show that these runs need no refusal that could be avoided. Proved for all other configurations with a positive limit (the others are in C78); C120_calendar shows that the condition on names holds for the patterns of C118."
  },
  {
   "property": "C121",
   "status": "partial",
   "theorems": [
    "Log4g.C121_any_library",
    "Log4g.C121_dates_partial",
    "Log4g.C121_days_partial",
    "Log4g.C121_taken",
    "Log4g.C121_hours_refuted"
   ],
   "note": "The code violates the property: names are checked by parsing, and Go reads hours with one digit, so with a pattern of hours a file like log.2020-02-28-3, which no period has, is removed (C121_hours_refuted). Proved: files are left alone unless their names have a date of the calendar in the form of the pattern, hours with one digit, fractions of seconds and other numbers of blanks included (C121_dates_partial); for patterns without hours, seconds and blanks the property holds (C121_days_partial). Every field is to occur once at most in the pattern and the years have four digits."
  },
  {
   "property": "C122",
   "status": "proved",
   "theorems": [
    "Log4g.C122_writer",
    "Log4g.C122_closes",
    "Log4g.C122_close",
    "Log4g.C122_shared",
    "Log4g.C122_program"
   ],
   "note": "The files read for archives and the temporary file of an archive are opened and closed within single calls of the model and are not counted. A file that is closed with an error counts as closed, as the operating system has it."
  },
  {
   "property": "C123",
   "status": "partial",
   "theorems": [
    "Log4g.C123_close_refuted",
    "Log4g.C123_held_partial"
   ],
   "note": "The code violates the property: Close of the outputs does not close their writers (C123_close_refuted, without a failing call). C123_held_partial says what is the case instead, for every program: an output whose last write succeeded has its file open until it writes again, whatever else happens. By C122 it is at most one file per output."
  },
  {
   "property": "C124",
   "status": "partial",
   "theorems": [
    "Log4g.C124_forward_refuted",
    "Log4g.C124_sync_partial",
    "Log4g.C124_async_partial",
    "Log4g.C124_syslog_partial"
   ],
   "note": "The code violates the property: a log call takes the time before it has the lock, so with two goroutines the line of a later time can come first (C124_forward_refuted). Proved for all kinds of outputs (OnTime): the times go forward for each goroutine; they go back only to the event of a log call that was still running when a log call took the later time; and they do not go back at all if no log call begins while another runs. Events the program makes itself and hands to an output have the times the program gives them and are excluded (NoOwnSends)."
  },
  {
   "property": "C125",
   "status": "proved",
   "theorems": [
    "Log4g.C125_whole",
    "Log4g.C125_sync",
    "Log4g.C125_async",
    "Log4g.C125_order"
   ],
   "note": "A write to standard output is assumed to succeed and to be one piece (os.File.Write holds the lock of the file while it writes). What the program prints itself is not modelled."
  },
  {
   "property": "C126",
   "status": "proved",
   "theorems": [
    "Log4g.C126_files",
    "Log4g.C126_space",
    "Log4g.C126_alive",
    "Log4g.C126_program_files",
    "Log4g.C126_program",
    "Log4g.C126_program_async",
    "Log4g.C126_program_sync"
   ],
   "note": "The size limit is assumed to be positive; C31 says when a configured size overflows. Archives (zip, gzip) are never removed by the code and are not counted. Whole programs do not die in the model Machine; for deaths and new starts see C126_files and C126_space."
  },
  {
   "property": "C127",
   "status": "partial",
   "theorems": [
    "Log4g.C127_lost_refuted",
    "Log4g.C127_quiet_refuted",
    "Log4g.C127_reports_partial",
    "Log4g.C127_call_partial",
    "Log4g.C127_warned_partial"
   ],
   "note": "The code violates both halves of the property: the result of a write is dropped, so a lost message is not reported (C127_lost_refuted); and a leftover println prints the directory of each rolling output when it is made (C127_quiet_refuted). Proved for every program: all failed removals of backups and nothing else are reported as such, in order; the directories printed are those of the rolling outputs, in the order in which they are made; a message for which all loggers up to the root have no outputs, and let it pass, is warned about with the name of its logger, and no other message is. What Go prints when a program panics is not counted."
  },
  {
   "property": "C128",
   "status": "partial",
   "theorems": [
    "Log4g.C128_lost_refuted",
    "Log4g.C128_close_refuted",
    "Log4g.C128_arrives_partial",
    "Log4g.C128_reached",
    "Log4g.C128_connections",
    "Log4g.C128_close_partial"
   ],
   "note": "The code violates two parts of the property: a message logged while the daemon cannot be reached is dropped, its error ignored (C128_lost_refuted); a message logged after Close opens a connection that nothing closes (C128_close_refuted). Proved for every program: whatever fails, what arrives is a part of what was sent, in order, none twice, and no more is missing than there were calls that could not reach the daemon; everything arrives as long as each call can connect anew, even if every connection breaks; there are never more connections than syslog outputs; Close leaves none if nothing is sent to a syslog output after it has closed that output. The package log/syslog is modelled from the Go library, not from /repo."
  },
  {
   "property": "C129",
   "status": "partial",
   "theorems": [
    "Log4g.Races.C129_no_races_refuted",
    "Log4g.Races.C129_set_config_refuted",
    "Log4g.Races.C129_set_level_refuted",
    "Log4g.Races.C129_set_formatter_refuted",
    "Log4g.Races.C129_memory_refuted",
    "Log4g.Races.C129_close_refuted",
    "Log4g.Races.C129_caller_refuted",
    "Log4g.Races.C129_races_partial",
    "Log4g.Races.C129_known_flags_partial",
    "Log4g.Races.C129_none_partial"
   ],
   "note": "The code violates the property: the fields of a logger are written by SetConfig, SetLevel, SetOutputs and SetCallerSkip and read by log calls without a lock, SetFormatter writes without one, a memory output has an unprotected buffer, and the worker of an asynchronous output calls Add on its wait group while Close may already wait; if an output or formatter of the program answers 3 to CallerInfoFlag(), the workers of asynchronous outputs write the caller information of one event. Proved for every execution: if a program uses only loggers and outputs it has been given, does not call SetConfig or a setter of a logger while another goroutine logs, and leaves formatters alone, there is no race but on these wait groups, memory buffers, and on the caller information of an event; if moreover all outputs answer at most 2 to CallerInfoFlag() there is none on caller information, the wait groups are raced for only in programs that call Close, and the buffers are those of synchronous memory outputs, so that a program with neither has no race at all. GetLogger, GetLoggerOutputs, RegisterFormatter, RegisterOutput, SetConfig and Close may be called at any time as far as races are concerned, and so may log calls with each other and with all of these but SetConfig."
  },
  {
   "property": "C130",
   "status": "partial",
   "theorems": [
    "Log4g.C130_outputs_refuted",
    "Log4g.C130_event_refuted",
    "Log4g.C130_ctx_refuted",
    "Log4g.C130_config_partial",
    "Log4g.C130_outputs_partial",
    "Log4g.C130_sync_partial",
    "Log4g.C130_event_partial",
    "Log4g.C130_ctx_partial",
    "Log4g.C130_ctx_line_partial"
   ],
   "note": "The code violates the property: SetOutputs stores the outputs before it panics, and from then on every log call of the logger that passes its level panics (C130_outputs_refuted); Send(nil) to an asynchronous output stops its worker for good (C130_event_refuted); a log call of WithCtx(nil) may return and the formatter panic over its event later, in the worker, which ends the program (C130_ctx_refuted). Proved: SetConfig(nil) panics and changes nothing, in any program; what SetOutputs with nil leaves as it is; Send(nil) to outputs that are not asynchronous does no harm; an asynchronous output writes at most the events sent before the first nil; when exactly a log call with the nil context panics, and for which layouts the text formatter does."
  },
  {
   "property": "C131",
   "status": "proved",
   "theorems": [
    "Log4g.C131_first_fault",
    "Log4g.C131_load",
    "Log4g.C131_shows",
    "Log4g.C131_told_apart"
   ],
   "note": "Loggers with the same name are no fault here, as the code does not see them (C18). C131_shows and C131_told_apart are also about the errors of GetLoggerOutputs (C27), except those that creators return."
  },
  {
   "property": "C132",
   "status": "proved",
   "theorems": [
    "Log4g.C132_again",
    "Log4g.C132_load"
   ],
   "note": "SameWorld is equality of the whole state of the model (loggers, levels, outputs, caches, instances) but for the number of calls of creators, which is higher if some creators fail."
  },
  {
   "property": "C133",
   "status": "proved",
   "theorems": [
    "Log4g.C133_logging",
    "Log4g.C133_level"
   ],
   "note": "Over whole histories: Elsewhere says that no call concerns the logger in the state in which it is made."
  },
  {
   "property": "C134",
   "status": "proved",
   "theorems": [
    "Log4g.C134_any_order",
    "Log4g.C134_load",
    "Log4g.C134_sharing"
   ],
   "note": "Instances are numbered in the order in which they are made; SameOut relates those of the two runs."
  },
  {
   "property": "C135",
   "status": "partial",
   "theorems": [
    "Log4g.C135_before_or_after_refuted",
    "Log4g.C135_before_or_after_partial",
    "Log4g.C135_sharing"
   ],
   "note": "Refuted: a logger that comes into being as the parent of another is not configured (C10) unless a configuration is set afterwards, so a/b obtained before a configuration with an entry for a differs from a/b obtained after it. The partial theorem assumes that whoever has an entry is obtained before the loggers below (TopDown). Missing: lists of names in other orders, for which the claim is false."
  },
  {
   "property": "C136",
   "status": "proved",
   "theorems": [
    "Log4g.C136_which",
    "Log4g.C136_any_order",
    "Log4g.C136_sharing"
   ],
   "note": "References to loggers and outputs are numbered in the order in which these are made; loggers are compared by name, outputs by AlikeOut. Parents follow from names (C05)."
  },
  {
   "property": "C137",
   "status": "partial",
   "theorems": [
    "Log4g.C137_order_refuted",
    "Log4g.C137_order_partial"
   ],
   "note": "Refuted: with an entry for a that says error, obtaining a and then a/b disables info for both; obtaining a/b and then a does not, as a comes into being without its entry (C10) and is not configured when it is obtained later. The partial theorem assumes that, in both programs, whoever has an entry is obtained before the loggers below (TopDown). Missing: other orders, for which the claim is false."
  },
  {
   "property": "C138",
   "status": "partial",
   "theorems": [
    "Log4g.C138_shuffled_refuted",
    "Log4g.C138_shuffled_partial"
   ],
   "note": "Refuted: a configuration with two entries for one logger is accepted (C18) and the first counts, so exchanging them changes the level. The partial theorem assumes that no two entries are for one logger. Missing: configurations with such entries, for which the claim is false."
  },
  {
   "property": "C139",
   "status": "proved",
   "theorems": [
    "Log4g.C139_unused"
   ],
   "note": "SameButConfig is equality of the whole state of the model but for the configuration that is kept; the state has all instances made and the number of creators that have run."
  },
  {
   "property": "C140",
   "status": "proved",
   "theorems": [
    "Log4g.C140_never_obtained"
   ],
   "note": "That loggers which come into being above others do not use their entries is the behaviour reported under C10. SameButConfig as in C138."
  },
  {
   "property": "C141",
   "status": "proved",
   "theorems": [
    "Log4g.C141_any_order"
   ],
   "note": "Calls one after the other; for concurrent calls see the claims about concurrency."
  },
  {
   "property": "C142",
   "status": "partial",
   "theorems": [
    "Log4g.C142_query_refuted",
    "Log4g.C142_query_partial"
   ],
   "note": "Refuted: asking makes the output, which is then kept for ever (C24), so that a configuration set later that defines the output anew has no effect on it; without the question it has. The partial theorem is about histories in which loggers are obtained, levels, caller skips and outputs are set, questions asked and configurations refused (Mild); the outputs given to loggers are ones the program had at the start. Missing: histories with configurations that are accepted or creators that are registered in between, for which the claim is false; SetOutputs with outputs the program got by asking, which a program that does not ask cannot do."
  },
  {
   "property": "C143",
   "status": "proved",
   "theorems": [
    "Log4g.C143_interleaved"
   ],
   "note": "The loggers that are set up and the outputs they are given exist before. The order among the setting calls is C141, the order among the obtaining calls C136 and C137."
  },
  {
   "property": "C144",
   "status": "partial",
   "theorems": [
    "Log4g.C144_last_refuted",
    "Log4g.C144_last_partial"
   ],
   "note": "Refuted: SetOutputs raises the need for caller information and never lowers it, so a logger that once had an output with, say, the line number in its layout captures the caller for ever (cost, and visible to custom outputs, but no line is wrong). The partial theorem covers all other settings for every list of calls, says that the need is never less than it would be, and that the whole state is equal if no logger is given outputs twice. Missing: equal needs when outputs are replaced, which is false."
  },
  {
   "property": "C145",
   "status": "proved",
   "theorems": [
    "Log4g.C145_registrations",
    "Log4g.C145_any_order"
   ],
   "note": "SameLibrary is equality of the whole state of the model but for the order in which the maps of creators keep their entries, which a Go map does not have. What a creator does besides answering is not modelled."
  },
  {
   "property": "C146",
   "status": "proved",
   "theorems": [
    "Log4g.C146_late"
   ],
   "note": "SameLibrary as in C145. The condition on configurations is about every state of the history (Along), the first and the last included. Not tested against seeded edits of its own."
  }
 ]
}