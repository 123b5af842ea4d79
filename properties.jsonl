{"id": "C01", "title": "Level names are read without regard to case", "statement": "LevelFrom(s) is the level whose documented name equals s up to letter case, and Uninitialized for every string that is no level name; the answer does not depend on the order in which Go iterates over the name table.", "quantifier": "every string s and every iteration order of the map", "why_tests_cant": "Map iteration order is chosen by the runtime at every call and the strings are unboundedly many; a test sees a few strings and one order.", "anchors": ["api/logger_level.go:LevelFrom", "api/logger_level.go:levelStrings"]}
{"id": "C02", "title": "Level names round-trip and are distinct", "statement": "For every defined level l from All to Off, LevelFrom(l.String()) == l, and no two defined levels share a long name or a short name; undefined levels print as the empty string.", "quantifier": "every integer used as a level", "why_tests_cant": "Level is an int: the claim about undefined levels ranges over all integers.", "anchors": ["api/logger_level.go:Level.String", "api/logger_level.go:Level.ShortStr"]}
{"id": "C03", "title": "The level gate is a threshold", "statement": "On any logger, if a message at some level is enabled then so is every message at a higher level, LevelEnabled(l) holds exactly when l is at least Level(), the six XxxEnabled methods ask for their own level, a message below the level is delivered nowhere, and an enabled message of a logger with own outputs is delivered to exactly these outputs in order (unless a field has the reserved name of C16).", "quantifier": "every reachable logger tree, every logger in it, every pair of levels", "why_tests_cant": "Logger trees of every shape and every int level are covered, not the few in a test.", "anchors": ["internal/logger.go:defLogger.LevelEnabled", "internal/logger.go:defWriter.write"]}
{"id": "C04", "title": "Off silences a logger", "statement": "A logger whose effective level is Off delivers no message to any output, whichever Writer method is used.", "quantifier": "every logger tree whose logger has effective level Off, every Writer method, every level passed to Printf", "why_tests_cant": "The level passed to Printf is an arbitrary int; only a proof covers all of them (and shows which ones break it).", "anchors": ["internal/logger.go:defWriter.Printf", "internal/logger.go:defLogger.LevelEnabled"]}
{"id": "C05", "title": "The hierarchy is decided by names alone", "statement": "After any sequence of API calls, the parent of an existing logger named n is the logger named by the longest non-empty prefix of n that ends just before a '/' or '.', and the root logger if there is none; creation order and configuration never change it.", "quantifier": "every history of GetLogger/SetConfig/SetLevel/SetOutputs calls, every name", "why_tests_cant": "Creation order has exponentially many histories, and names are unbounded.", "anchors": ["internal/logger_factory.go:factory.getParent", "internal/logger_factory.go:factory.createLogger"]}
{"id": "C06", "title": "GetLogger returns one logger per name for ever", "statement": "Two GetLogger calls with the same name, anywhere in a history, return the same logger; \"\" and \"root\" both give the root logger; two other different names never give the same logger; no call ever removes a logger.", "quantifier": "every history of API calls between the two GetLogger calls", "why_tests_cant": "Identity must survive arbitrary intermediate histories.", "anchors": ["internal/logger_factory.go:factory.GetLogger", "internal/logger_factory.go:factory.createLogger"]}
{"id": "C07", "title": "Level inheritance", "statement": "Level() of a logger is the level of the nearest logger on the path from it to the root whose own level is set, and Off if none is set; the walk always terminates. A logger other than the root that no call of SetLevel or SetOutputs and no configuration ever named has no level of its own, so that it shows its parent's, and no outputs of its own.", "quantifier": "every reachable logger tree and every logger in it", "why_tests_cant": "Depth of the tree and the position of the set level are unbounded; termination is an acyclicity invariant over all histories.", "anchors": ["internal/logger.go:defLogger.Level"]}
{"id": "C08", "title": "Output inheritance", "statement": "A message that passes the gates is delivered exactly once to each entry of the output list of the nearest logger on the path to the root with a non-empty output list, in list order, and to no other output (unless a field has the reserved name of C16).", "quantifier": "every reachable logger tree, logger, message", "why_tests_cant": "Which ancestor answers depends on an unbounded tree and history.", "anchors": ["internal/logger.go:defWriter.write"]}
{"id": "C09", "title": "The logger's own level decides", "statement": "If a logger's effective level enables a message and some logger on its path to the root has outputs, the message is delivered, whatever the levels of the ancestors.", "quantifier": "every reachable logger tree, logger and level", "why_tests_cant": "Requires all combinations of levels along arbitrarily long delegation paths.", "anchors": ["internal/logger.go:defWriter.write"]}
{"id": "C10", "title": "A configured logger gets its configuration however it came to exist", "statement": "GetLogger(n) for an n with an entry in the current configuration (whose outputs can be created) returns a logger with the configured level and outputs, whatever loggers were obtained before.", "quantifier": "every history of GetLogger calls before it", "why_tests_cant": "The violating histories obtain a descendant first; a test that obtains loggers top-down never sees it.", "anchors": ["internal/logger_factory.go:factory.GetLogger", "internal/logger_factory.go:factory.getParent"]}
{"id": "C11", "title": "An event is attributed to the logger the caller used", "statement": "Every delivered event carries the name of the logger the caller called, the level, format and arguments the caller gave, whichever ancestor's outputs deliver it.", "quantifier": "every reachable logger tree, logger, message", "why_tests_cant": "Delegation depth is unbounded.", "anchors": ["internal/logger.go:defWriter.write", "api/logger_api.go:Event"]}
{"id": "C12", "title": "Fields reach the output", "statement": "Values attached with WithFields or WithCtx are visible, under their keys, to every output that receives the message; for a key given twice the last value wins.", "quantifier": "every field list, logger tree and logger", "why_tests_cant": "The value is lost only when delivery happens in an ancestor; tests use a logger with its own outputs.", "anchors": ["internal/logger.go:defLogger.WithFields", "internal/logger.go:defWriter.write", "internal/format_parser.go:extendFormatFunc"]}
{"id": "C13", "title": "The reported call site is the user's call", "statement": "For the twelve level methods (Trace .. Criticalf) the call site recorded in the event is the user frame that called the method, and the frame k above it after SetCallerSkip(k), for every number of delegation hops.", "quantifier": "every delegation depth, every stack, every skip", "why_tests_cant": "Depth of delegation and stack are unbounded.", "anchors": ["internal/logger.go:defWriter.write", "internal/logger_callerinfo.go:getCallerInfo", "internal/logger.go:defLogger.SetCallerSkip"]}
{"id": "C14", "title": "The reported call site of Printf is the user's call", "statement": "For Printf the recorded call site is the user frame that called Printf, for every number of delegation hops.", "quantifier": "every delegation depth and stack", "why_tests_cant": "Depth of delegation and stack are unbounded.", "anchors": ["internal/logger.go:defWriter.Printf", "internal/logger_callerinfo.go:getCallerInfo"]}
{"id": "C15", "title": "Caller information is captured in the calling goroutine", "statement": "After any history, whenever some output of a logger has a layout that prints file, line, package or function, the logger records that information before handing the event to the outputs, in the detail the most demanding output needs.", "quantifier": "every history of SetConfig/GetLogger/SetOutputs calls, every logger and output", "why_tests_cant": "It is an invariant over all configuration histories.", "anchors": ["internal/logger.go:defLogger.SetOutputs", "internal/format_text.go:textFormatter.CallerInfoFlag"]}
{"id": "C16", "title": "Logging never panics because of field names", "statement": "No list of fields makes a log call panic.", "quantifier": "every field list and logger tree", "why_tests_cant": "One reserved key among all strings breaks it.", "anchors": ["internal/logger_callerinfo.go:getCallerInfo"]}
{"id": "C17", "title": "SetConfig accepts exactly the consistent configurations, and a rejected one changes nothing", "statement": "SetConfig returns an error exactly when format or output names repeat, an output names a missing format, or a logger names a missing output; after an error the configuration, loggers and outputs are exactly as before.", "quantifier": "every configuration and every prior state", "why_tests_cant": "Configurations are unbounded lists of maps.", "anchors": ["internal/logger_manager.go:defManager.validateConfig", "internal/logger_manager.go:defManager.setConfig"]}
{"id": "C18", "title": "Duplicate logger names are rejected", "statement": "SetConfig rejects every configuration in which two loggers have the same name.", "quantifier": "every configuration", "why_tests_cant": "Universally quantified over configurations.", "anchors": ["internal/logger_manager.go:defManager.validateConfig", "api/logger_mange.go:Config.GetCfgLogger"]}
{"id": "C19", "title": "LoadConfig reports what it cannot load", "statement": "LoadConfig with an unsupported extension, or with text that the YAML or JSON decoder rejects, returns an error and leaves the configuration unchanged.", "quantifier": "every byte string, every extension, every prior state", "why_tests_cant": "Inputs are unbounded, and the claim is about an error branch for each of them.", "anchors": ["internal/logger_manager.go:defManager.LoadConfig"]}
{"id": "C20", "title": "LoadConfigFile never panics", "statement": "LoadConfigFile returns (possibly an error) for every file name: an error if the file cannot be read, otherwise what LoadConfig returns for its content and extension.", "quantifier": "every file name and file content", "why_tests_cant": "Universally quantified over path strings.", "anchors": ["internal/logger_manager.go:defManager.LoadConfigFile"]}
{"id": "C21", "title": "After SetConfig every existing configured logger has its new configuration", "statement": "When SetConfig(cfg) succeeds and the outputs a logger entry names can be created, every logger that exists and has an entry in cfg ends up with that entry's level and outputs, whatever the order in which loggers are notified.", "quantifier": "every prior history, configuration and iteration order of the logger map", "why_tests_cant": "The notification order is a random map iteration.", "anchors": ["internal/logger_factory.go:factory.notify", "internal/logger_manager.go:defManager.setConfig"]}
{"id": "C22", "title": "SetConfig leaves loggers without an entry alone", "statement": "A logger with no entry in the new configuration keeps the level and outputs it had.", "quantifier": "every prior history and configuration", "why_tests_cant": "Universally quantified over histories and iteration orders.", "anchors": ["internal/logger_factory.go:factory.notify"]}
{"id": "C23", "title": "One instance per output name", "statement": "All loggers whose entries name the same output share one output instance, which is created at most once in the life of the process, by the first use, and has the formatter its configuration names at that moment.", "quantifier": "every history of configuration and GetLogger calls, every (possibly failing, effectful) creator", "why_tests_cant": "Sharing must hold over all histories and schedules of use.", "anchors": ["internal/logger_manager.go:defManager.GetLoggerOutputs"]}
{"id": "C24", "title": "Redefining an output takes effect", "statement": "After SetConfig with a configuration that changes the definition of an output, loggers that name it write to an output built from the new definition.", "quantifier": "every pair of configurations", "why_tests_cant": "A test with one configuration per process cannot see it.", "anchors": ["internal/logger_manager.go:defManager.GetLoggerOutputs"]}
{"id": "C25", "title": "Concurrent SetConfig and GetLogger calls settle on the last configuration", "statement": "For every interleaving of concurrent SetConfig and GetLogger calls, once all of them have returned, every logger with an entry in the configuration written last, and that existed when that SetConfig notified or was first obtained by GetLogger, has that entry's level and outputs.", "quantifier": "every number of threads and every interleaving at lock granularity", "why_tests_cant": "Interleavings cannot be enumerated by tests.", "anchors": ["internal/logger_manager.go:defManager.setConfig", "internal/logger_factory.go:factory.notify", "internal/logger_factory.go:factory.GetLogger"]}
{"id": "C26", "title": "Root fallback", "statement": "If the root logger is first needed while the configuration has no usable root entry, the root logger has level Debug and exactly one console output with the default layout.", "quantifier": "every configuration without a usable root entry, every prior history that has not used a logger", "why_tests_cant": "Quantifies over histories and configurations.", "anchors": ["internal/logger_factory.go:factory.getRootLogger"]}
{"id": "C27", "title": "GetLoggerOutputs answers in configuration order or names the first obstacle", "statement": "GetLoggerOutputs(n) either returns the outputs named by the first entry for n, in order, one per name, with the entry's level, or returns an error caused by the first output name that is missing, has a missing format, an unregistered type or a failing creator.", "quantifier": "every manager state and name", "why_tests_cant": "Universally quantified over configurations and creator behaviours.", "anchors": ["internal/logger_manager.go:defManager.GetLoggerOutputs"]}
{"id": "C28", "title": "Queue size, batch size and backup count are always in range", "statement": "For every configured string the queue size is between 1 and 100000, the batch size between 1 and 500 and the number of backups between 1 and 20; a decimal integer inside the range is used as it is, a larger one is cut to the maximum (so is any string whose leading digits, after an optional plus sign, overflow 64 bits), and anything else gives the default (1000, 20, 5).", "quantifier": "every string", "why_tests_cant": "All strings, including overlong numbers that overflow int64.", "anchors": ["internal/output_base.go:GetQueueSize", "internal/output_base.go:GetBatchNum", "internal/output_rolling.go:getMaxRolls"]}
{"id": "C29", "title": "File modes stay inside the permission bits", "statement": "Every configured permission string yields a mode between 1 and 0777; a string that denotes such a mode in Go's base-prefix notation is used as it is and every other string gives the default. In a rolling output file_perm is for the log file (default 0600), dir_perm for the directory (default 0760) and back_perm for backups (default 0500).", "quantifier": "every string and default", "why_tests_cant": "All strings.", "anchors": ["internal/output_rolling.go:getFileMode"]}
{"id": "C30", "title": "A size with a unit means number times unit", "statement": "For every positive n, the sizes \"nK\", \"nM\" and \"nG\" mean n times 1024, 1024^2 and 1024^3 bytes.", "quantifier": "every positive n", "why_tests_cant": "Universally quantified over n.", "anchors": ["internal/output_rolling.go:getMaxSize"]}
{"id": "C31", "title": "The rolling size is positive", "statement": "Every configured size string yields a positive rolling size, so that a rolling file output can always write.", "quantifier": "every string", "why_tests_cant": "The violating strings have 20 or more digits.", "anchors": ["internal/output_rolling.go:getMaxSize", "internal/output_rollingwriter.go:rollingFileWriterSize.needsToRoll"]}
{"id": "C32", "title": "An unreadable threshold lets everything through", "statement": "A threshold string that is no level name gives threshold All; a level name gives that level; no configured threshold is Uninitialized.", "quantifier": "every string", "why_tests_cant": "All strings.", "anchors": ["internal/output_base.go:GetThresholdLvl"]}
{"id": "C33", "title": "A layout is cut into verbs and literal text without loss", "statement": "Whenever a layout is accepted, the literal pieces and verbs it is split into, put back together in order, are exactly the layout.", "quantifier": "every layout string", "why_tests_cant": "All strings, with the regular expression's leftmost-first semantics.", "anchors": ["internal/format_parser.go:StringFormatter.Parser", "internal/format_parser.go:formatRe"]}
{"id": "C34", "title": "Layout parsing inverts layout writing", "statement": "For every list of literal pieces and verbs, with at least one verb, written in the documented %{name} / %{name:fmt} notation, parsing the written layout gives that list back. Literals must not contain %{ and formats a closing brace only behind a backslash, for otherwise the notation is ambiguous.", "quantifier": "every list of well-formed pieces", "why_tests_cant": "Unbounded lists of unbounded strings.", "anchors": ["internal/format_parser.go:StringFormatter.Parser"]}
{"id": "C35", "title": "A layout is rejected exactly when it has no verb", "statement": "Parser returns an error exactly when no part of the layout has the form of a verb.", "quantifier": "every layout string", "why_tests_cant": "All strings.", "anchors": ["internal/format_parser.go:StringFormatter.Parser"]}
{"id": "C36", "title": "A formatted line is the concatenation of its pieces", "statement": "Format writes, in layout order, each literal piece unchanged and each verb's value, and nothing else; two events that agree on the verbs the layout uses give the same line.", "quantifier": "every layout, every event", "why_tests_cant": "Unbounded layouts and events.", "anchors": ["internal/format_parser.go:StringFormatter.Format"]}
{"id": "C37", "title": "The message is printed as it is", "statement": "A %{msg} or %{module} verb without format contributes exactly the message or logger name, whatever percent signs, braces or newlines they contain; layout syntax inside a message is never interpreted.", "quantifier": "every message, name and layout", "why_tests_cant": "All strings, including hostile ones.", "anchors": ["internal/format_parser.go:messageFormatFunc", "internal/format_parser.go:StringFormatter.Format"]}
{"id": "C38", "title": "The f-methods format, the plain methods print", "statement": "The message of Debugf(f, args...) is Sprintf(f, args...) and the message of Debug(args...) is Sprint(args...), for every argument list including the empty one.", "quantifier": "every format string and argument list", "why_tests_cant": "The empty argument list and the empty format are corner cases among all inputs.", "anchors": ["api/logger_api.go:Event.Message", "internal/logger.go:defWriter.Debugf"]}
{"id": "C39", "title": "Unknown verbs print fields", "statement": "A verb that is no built-in name prints the field of that name, the last one given if it was given twice, and <nil> if there is none; built-in names always print the built-in value even if a field has that name.", "quantifier": "every layout, verb name, field list", "why_tests_cant": "All names and field lists.", "anchors": ["internal/format_parser.go:extendFormatFunc", "internal/format_parser.go:formatFuncs", "internal/logger.go:defLogger.WithFields"]}
{"id": "C40", "title": "The caller-info flag is what the layout needs", "statement": "CallerInfoFlag of a text formatter is 2 when the layout has a package or function verb, else 1 when it has a file or line verb, else 0.", "quantifier": "every layout", "why_tests_cant": "All layouts.", "anchors": ["internal/format_text.go:textFormatter.CallerInfoFlag", "internal/format_parser.go:formatCallerFlags"]}
{"id": "C41", "title": "Package and function split the qualified name", "statement": "When package and function can be told apart, %{longpkg} + \".\" + %{longfunc} is the full name the runtime reports and the package's last path element has no dot; otherwise both print ???; no name makes the split panic.", "quantifier": "every function name string", "why_tests_cant": "All strings; index arithmetic.", "anchors": ["internal/logger_callerinfo.go:getCallerInfo"]}
{"id": "C42", "title": "A synchronous output writes exactly the accepted events, in order", "statement": "For every sequence of events sent to a synchronous output, the bytes written are the formatted texts of the events at or above the threshold, in order, one Write per event; a memory output's String is their concatenation.", "quantifier": "every event sequence, threshold and formatter", "why_tests_cant": "Unbounded sequences.", "anchors": ["internal/output_base.go:baseOutput.Send", "internal/output_memory.go:NewMemoryOutput"]}
{"id": "C43", "title": "Syslog gets the right severity", "statement": "An event at one of the six named levels at or above the threshold makes exactly one syslog call with the corresponding severity; events below the threshold make none.", "quantifier": "every event, every int level, threshold and formatter", "why_tests_cant": "All ints as levels.", "anchors": ["internal/output_syslog.go:syslogOutput.Send"]}
{"id": "C44", "title": "An asynchronous output neither loses, duplicates nor reorders queued events", "statement": "At every moment of every schedule, the bytes handed to the writer, followed by the pending batch, are the formatted accepted events among those taken from the queue, in the order they were queued, and what was taken followed by what is queued is everything queued.", "quantifier": "every number of senders and closers and every interleaving, with timer ticks at any time", "why_tests_cant": "Interleavings are unbounded.", "anchors": ["internal/output_base.go:asyncOutput.loop", "internal/output_base.go:asyncOutput.Send"]}
{"id": "C45", "title": "Each sender's events keep their order", "statement": "Two events sent one after the other by the same goroutine are queued, and so written, in that order if both are queued.", "quantifier": "every interleaving of any number of senders", "why_tests_cant": "Interleavings are unbounded.", "anchors": ["internal/output_base.go:asyncOutput.Send"]}
{"id": "C46", "title": "A batch is bounded and a tick flushes it", "statement": "At every moment fewer than batch_num accepted events (and at least none) are waiting in the batch buffer, and right after a timer tick none is. Every write carries at most batch_num events, each of them whole.", "quantifier": "every schedule, every batch_num >= 1", "why_tests_cant": "Interleavings are unbounded.", "anchors": ["internal/output_base.go:asyncOutput.flush", "internal/output_base.go:asyncOutput.loop"]}
{"id": "C47", "title": "Close writes everything sent before it", "statement": "When Close on an asynchronous output returns, every event whose Send returned before Close was called, and is at or above the threshold, has been handed to the writer.", "quantifier": "every interleaving, including the start of the worker goroutine", "why_tests_cant": "The violating schedule needs the worker goroutine to be slow to start.", "anchors": ["internal/output_base.go:asyncOutput.Close", "internal/output_base.go:asyncOutput.loop", "internal/output_base.go:NewAsyncOutput"]}
{"id": "C48", "title": "Sending after Close is harmless", "statement": "A Send that starts after a Close has returned does nothing: it never blocks, panics or writes.", "quantifier": "every history with a completed Close", "why_tests_cant": "Quantifies over all later schedules.", "anchors": ["internal/output_base.go:asyncOutput.Send"]}
{"id": "C49", "title": "Close may be repeated", "statement": "A Close that starts after another Close has returned does nothing.", "quantifier": "every history with a completed Close", "why_tests_cant": "Quantifies over all later schedules.", "anchors": ["internal/output_base.go:asyncOutput.Close"]}
{"id": "C50", "title": "Send and Close never panic", "statement": "No interleaving of Send and Close calls on an asynchronous output panics.", "quantifier": "every interleaving of any number of senders and closers", "why_tests_cant": "Needs a particular interleaving between the closed check and the channel operation.", "anchors": ["internal/output_base.go:asyncOutput.Send", "internal/output_base.go:asyncOutput.Close"]}
{"id": "C51", "title": "Close terminates", "statement": "A Close call on an asynchronous output with a running worker can always complete: it is never deadlocked, and once its request is queued the worker stops after handling exactly the events queued before it, whatever other goroutines do.", "quantifier": "every reachable state and every continuation", "why_tests_cant": "A liveness claim over all schedules.", "anchors": ["internal/output_base.go:asyncOutput.Close", "internal/output_base.go:asyncOutput.loop"]}
{"id": "C52", "title": "Asynchronous and synchronous outputs write the same bytes", "statement": "For the same sequence of queued events, threshold and formatter, an asynchronous output that has been closed has written exactly the bytes a synchronous output writes.", "quantifier": "every event sequence, batch size, queue size, threshold and tick schedule", "why_tests_cant": "Unbounded schedules and sequences.", "anchors": ["internal/output_base.go:asyncOutput.loop", "internal/output_base.go:baseOutput.Send"]}
{"id": "C53", "title": "An asynchronous output without formatter uses the default layout", "statement": "Like a synchronous output, an asynchronous output that was given no formatter writes events in the default layout.", "quantifier": "every event", "why_tests_cant": "Universally quantified over events.", "anchors": ["internal/output_base.go:asyncOutput.loop", "internal/output_base.go:baseOutput.Send"]}
{"id": "C54", "title": "Size rolling keeps a gap-free suffix of the log", "statement": "At any time the backups in order of their number, followed by the current file, are a contiguous final part of everything the directory held at the start followed by everything written, with nothing missing, duplicated or reordered inside it; only whole oldest backups beyond the configured number are missing.", "quantifier": "every sequence of writes of any sizes, every limit, every backup count, any pre-existing backups with different numbers (as long as these stay below the 64-bit limit), every failure of the file system but that of a removal", "why_tests_cant": "Unbounded write sequences.", "anchors": ["internal/output_rollingwriter.go:rollingFileWriter.Write", "internal/output_rollingwriter.go:rollingFileWriter.roll", "internal/output_rollingwriter.go:rollingFileWriter.deleteOldRolls"]}
{"id": "C55", "title": "A message is never split over two files", "statement": "Every write ends up contiguous in one file.", "quantifier": "every sequence of writes", "why_tests_cant": "Unbounded write sequences.", "anchors": ["internal/output_rollingwriter.go:rollingFileWriter.Write"]}
{"id": "C56", "title": "At most the configured number of backups remains", "statement": "After every roll there are at most as many backup files as configured, besides those it tried to remove in vain, and between rolls no file but the log file changes.", "quantifier": "every sequence of writes, crashes, restarts and failures, any initial directory, every positive number of backups (as configured outputs have, C28)", "why_tests_cant": "Unbounded write sequences.", "anchors": ["internal/output_rollingwriter.go:rollingFileWriter.deleteOldRolls"]}
{"id": "C57", "title": "File size is bounded by the limit plus one write", "statement": "Every file that a writer starts stays below the limit plus the length of one write, whatever fails, and every backup it makes has reached the limit. (For a program that starts anew see C100.)", "quantifier": "every sequence of writes by a writer that starts without a log file, every positive limit, every failure", "why_tests_cant": "Unbounded write sequences.", "anchors": ["internal/output_rollingwriter.go:rollingFileWriterSize.needsToRoll"]}
{"id": "C58", "title": "A roll never overwrites a backup", "statement": "The name chosen for a new backup is not the name of any existing backup and sorts after all of them.", "quantifier": "every directory content, both naming modes", "why_tests_cant": "All directories; breaks at the largest int.", "anchors": ["internal/output_rollingwriter.go:rollingFileWriterSize.getNewHistoryRollFileName", "internal/output_rollingwriter.go:rollingFileWriter.getSortedLogHistory"]}
{"id": "C59", "title": "Foreign files are never touched", "statement": "A file in the log directory that is neither the log file nor named like one of its backups is never changed, renamed or removed, even when operations fail.", "quantifier": "every directory content, every write sequence, every pattern of I/O faults", "why_tests_cant": "Fault patterns and directories are unbounded.", "anchors": ["internal/output_rollingwriter.go:rollingFileWriter.hasRollName", "internal/output_rollingwriter.go:rollingFileWriter.roll"]}
{"id": "C60", "title": "Backup names encode and decode", "statement": "In both naming modes the backup name built from a roll tag decodes to that tag, different tags give different names, a name recognised as a backup is rebuilt exactly from its tag, and the log file itself is never taken for a backup.", "quantifier": "every log file name and tag", "why_tests_cant": "All strings.", "anchors": ["internal/output_rollingwriter.go:rollingFileWriter.createFullFileName", "internal/output_rollingwriter.go:rollingFileWriter.getFileRollName", "internal/output_rollingwriter.go:rollingFileWriter.hasRollName"]}
{"id": "C61", "title": "Rolling is crash consistent", "statement": "If the process dies between any two file system operations of any write and a new writer later continues in the same directory, the retained files are still a gap-free suffix of everything that reached the disk.", "quantifier": "every write sequence, every crash point, any number of crashes", "why_tests_cant": "Crash points cannot be enumerated by unit tests.", "anchors": ["internal/output_rollingwriter.go:rollingFileWriter.roll", "internal/output_rollingwriter.go:rollingFileWriter.Write"]}
{"id": "C62", "title": "A transient failure does not stop logging for good", "statement": "After a write fails because a file system operation failed, a later write succeeds if the file system works again.", "quantifier": "every failing operation and every later history", "why_tests_cant": "Needs fault injection at each operation followed by unbounded histories.", "anchors": ["internal/output_rollingwriter.go:rollingFileWriter.roll", "internal/output_rollingwriter.go:rollingFileWriter.Write"]}
{"id": "C63", "title": "Restarting appends", "statement": "A new writer on an existing log file never truncates it: the old content stays in front of the new, and counts toward the size limit from the second write on.", "quantifier": "every existing content and write sequence", "why_tests_cant": "Unbounded contents.", "anchors": ["internal/output_rollingwriter.go:rollingFileWriter.createFileAndFolderIfNeeded"]}
{"id": "C64", "title": "Backups carry the backup permissions", "statement": "Every backup the writer makes has exactly the configured back_perm, and a log file it creates has file_perm reduced by the umask.", "quantifier": "every write sequence, permission setting and umask; for backups, whenever the change of permissions succeeds", "why_tests_cant": "Unbounded write sequences.", "anchors": ["internal/output_rollingwriter.go:rollingFileWriter.roll", "internal/output_rollingwriter.go:rollingFileWriter.createFileAndFolderIfNeeded"]}
{"id": "C65", "title": "Concurrent writers to one rolling output are serialised", "statement": "For every interleaving of concurrent writes to one rolling output, the files are those of some sequential order of the same writes that respects each goroutine's own order.", "quantifier": "every number of goroutines and every interleaving", "why_tests_cant": "Interleavings are unbounded.", "anchors": ["internal/output_rollingwriter.go:rollingFileWriter.Write"]}
{"id": "C66", "title": "Time rolling rolls exactly at a change of period", "statement": "A write rolls the file exactly when the formatted current time differs from the one at the previous roll (or first write), and the backup is named after the period that ended; an empty pattern never rolls.", "quantifier": "every sequence of writes at any times", "why_tests_cant": "Unbounded sequences and clocks.", "anchors": ["internal/output_rollingwriter.go:rollingFileWriterTime.needsToRoll", "internal/output_rollingwriter.go:rollingFileWriterTime.getNewHistoryRollFileName"]}
{"id": "C67", "title": "Time rolling keeps a gap-free suffix of the log", "statement": "With time rolling nothing is lost except whole oldest backups beyond the configured number.", "quantifier": "every sequence of writes and every behaviour of the formatted clock", "why_tests_cant": "Needs a clock that repeats a period name.", "anchors": ["internal/output_rollingwriter.go:rollingFileWriterTime", "internal/output_rollingwriter.go:rollingFileWriter.roll"]}
{"id": "C68", "title": "A backup holds the lines of its period", "statement": "The backup named after a period contains only lines written while the formatted time was that period.", "quantifier": "every sequence of writes, clocks and restarts", "why_tests_cant": "Needs restarts at arbitrary times.", "anchors": ["internal/output_rollingwriter.go:rollingFileWriterTime.needsToRoll"]}
{"id": "C69", "title": "An idle output does not discard logs", "statement": "Log lines are not removed by the mere passing of time while nothing is logged.", "quantifier": "every idle schedule of timer ticks", "why_tests_cant": "Needs long idle schedules of the 5 second ticker.", "anchors": ["internal/output_base.go:asyncOutput.loop", "internal/output_rollingwriter.go:rollingFileWriter.Write"]}
{"id": "C70", "title": "With archive configured, rolled-off backups are archived before removal", "statement": "When archive is zip or gzip in the configuration, the content of every backup removed by rolling can be found in an archive.", "quantifier": "every configuration with archive set, every write sequence", "why_tests_cant": "Unbounded histories; the archiving error is silently ignored.", "anchors": ["internal/output_rolling.go:NewRollingOutput", "internal/output_rollingwriter.go:rollingFileWriter.deleteOldRolls", "internal/output_rollingwriter.go:rollingFileWriter.archiveUnexplodedLogs"]}
{"id": "C71", "title": "Archive copy preserves entries", "statement": "Copying an archive into another adds the same sequence of (name, content) pairs, for every source and destination format that can hold them; a copy that fails has added the first of them, the last one perhaps in part. A gzip file, which holds one file without name, is never silently given more than one.", "quantifier": "every list of entries (directories and files without name apart, for which see the theorem), every pair of formats, every archive already there, every failing operation", "why_tests_cant": "Unbounded lists of unbounded contents through a reused buffer file.", "anchors": ["internal/archive/archive.go:Copy", "internal/archive/archive.go:copyBuffer"]}
{"id": "C72", "title": "Adding to an archive file keeps the old entries and is atomic", "statement": "With an archive file path, archiving appends the rolled-off logs behind the entries already in the archive, and at every crash point and on every failure the archive path holds either the old or the complete new archive.", "quantifier": "every archive content, every list of logs, every fault and crash point", "why_tests_cant": "Crash points and faults are unbounded.", "anchors": ["internal/output_rollingwriter.go:rollingFileWriter.archiveUnexplodedLogs"]}
{"id": "C73", "title": "End to end: what is logged is what is on disk", "statement": "For an asynchronous size-rolling output that has been closed, the backups followed by the current file are a gap-free suffix of the initial content followed by the formatted accepted events in queue order, no text being cut in two; before that, all but fewer than batch_num of the events taken from the queue are there, and after a crash all but the last batch. For a synchronous one, the texts of all goroutines are there in an order that respects each goroutine's.", "quantifier": "every schedule, event sequence, batch size, limit and crash point, as long as no operation of the file system fails", "why_tests_cant": "Combines schedules and unbounded histories.", "anchors": ["internal/output_base.go:asyncOutput", "internal/output_rollingwriter.go:rollingFileWriter.Write"]}
{"id": "C74", "title": "No deadlock between SetConfig and GetLogger", "statement": "Whatever SetConfig and GetLogger calls are under way, the goroutine inside the logger factory can always finish without any other goroutine moving, and when there is none every pending call can be completed.", "quantifier": "every number of goroutines, every interleaving, every configuration", "why_tests_cant": "Schedules are unbounded; the factory calls back into the manager, which itself notifies the factory.", "anchors": ["internal/logger_factory.go:loggerFactory.notify", "internal/logger_factory.go:loggerFactory.GetLogger", "internal/logger_manager.go:loggerManager.setConfig"]}
{"id": "C75", "title": "Concurrent GetLogger calls agree", "statement": "Two GetLogger calls made by any goroutines, while others set configurations, return the same logger exactly when they asked for the same name (the empty name being root).", "quantifier": "every number of goroutines, every interleaving, every pair of names", "why_tests_cant": "Schedules and names are unbounded.", "anchors": ["internal/logger_factory.go:loggerFactory.GetLogger", "internal/logger_factory.go:loggerFactory.createLogger"]}
{"id": "C76", "title": "A logged line shows where it was logged from", "statement": "When a level method is called, every output that formats the event with a text layout gets the line of that layout, in which file, line, package and function verbs show the place the method was called from, whatever hierarchy of loggers the event passed through.", "quantifier": "every configuration history, logger, method, stack, layout and number of steps up the hierarchy", "why_tests_cant": "Histories, hierarchies, stacks and layouts are unbounded.", "anchors": ["internal/logger.go:logger.write", "internal/logger_callerinfo.go:getCallerInfo", "internal/format_parser.go:StringFormatter.Format"]}
{"id": "C77", "title": "Concurrent sends to a synchronous output lose nothing", "statement": "When several goroutines send to one synchronous output at the same time, each text is written whole and exactly once.", "quantifier": "every number of goroutines, every interleaving, every text", "why_tests_cant": "Schedules are unbounded.", "anchors": ["internal/output_base.go:baseOutput.Send", "internal/output_memory.go:NewMemoryOutput"]}
{"id": "C78", "title": "A configured rolling output can write", "statement": "For every configuration of a size- or time-rolling output that is accepted, as long as no operation of the system fails, every write succeeds and is complete.", "quantifier": "every configuration, every history of writes in which nothing fails", "why_tests_cant": "Configurations and histories are unbounded; some configured sizes overflow.", "anchors": ["internal/output_rolling.go:NewRollingOutput", "internal/output_rolling.go:getMaxSize", "internal/output_rollingwriter.go:rollingFileWriter.Write"]}
{"id": "C79", "title": "A transient write error does not lose lines", "statement": "If a write to a rolling output fails and later writes succeed, the lines of the failed write are not missing between the earlier and the later ones.", "quantifier": "every schedule, every batch, every failing write", "why_tests_cant": "Needs faults in the middle of unbounded histories.", "anchors": ["internal/output_base.go:asyncOutput.flush", "internal/output_base.go:baseOutput.Send"]}
{"id": "C80", "title": "Reading an archive back finds what was put into it", "statement": "An archive that is read back and copied on yields the files it was written with and nothing else.", "quantifier": "every list of entries, every format", "why_tests_cant": "Lists of entries are unbounded; the format is guessed from the content.", "anchors": ["internal/output_rollingwriter.go:compressionTypes", "internal/archive/archive.go:Copy", "internal/archive/archive.go:NopCloser"]}
{"id": "C81", "title": "Out of the box every message appears on the console", "statement": "In a program that configures nothing, every call of a level method on any logger prints exactly one line on standard output: time, level, process id, logger name, message and the function, package, file and line of the call, in the default layout.", "quantifier": "every sequence of GetLogger and SetCallerSkip calls, every logger name, method, message and call stack", "why_tests_cant": "Logger trees, messages and stacks are unbounded.", "anchors": ["internal/log4g.go:init", "internal/logger.go:defWriter.write", "internal/output_console.go:NewConsoleOutput"]}
{"id": "C82", "title": "A configured console prints one line per message that passes", "statement": "If the outputs a message reaches are synchronous consoles with text formatters and outputs that are no consoles, standard output gets one line for each of the consoles whose threshold is not above the level, in order, and each line is the layout of that output filled in with the event and the place of the call.", "quantifier": "every history of configuration and API calls after init, every logger, method, message, layout and threshold", "why_tests_cant": "Histories, hierarchies and layouts are unbounded.", "anchors": ["internal/log4g.go:init", "internal/logger_manager.go:defManager.GetLoggerOutputs", "internal/format_text.go:NewTextFormatter", "internal/output_console.go:NewConsoleOutput"]}
{"id": "C83", "title": "A message logged during a reconfiguration is handled before or after it", "statement": "If SetConfig, SetLevel or SetOutputs is called by one goroutine while another logs a message, the message is handled as if it had been logged just before or just after that call: the level, the outputs and the caller information belong together.", "quantifier": "every interleaving of the statements of a log call with statements of other goroutines, from every reachable state, every logger, message and configuration", "why_tests_cant": "The interleavings are unbounded and a race shows up only by chance.", "anchors": ["internal/logger.go:defWriter.write", "internal/logger.go:defLogger.Level", "internal/logger.go:defLogger.SetOutputs", "internal/logger_factory.go:defFactory.notify"]}
{"id": "C84", "title": "Logging waits for nobody", "statement": "Every log call comes to an end after a number of its own steps that depends only on the logger, whatever other goroutines do with the library meanwhile (as far as the outputs it calls return).", "quantifier": "every interleaving of a log call with statements of other goroutines, from every reachable state", "why_tests_cant": "Schedules are unbounded; a livelock cannot be ruled out by runs that end.", "anchors": ["internal/logger.go:defWriter.write", "internal/logger.go:defLogger.Level"]}
{"id": "C85", "title": "At any moment an asynchronous output has written only what was logged, in order", "statement": "Whatever goroutines log, reconfigure, close and send at the same time, at every moment (so also at a crash) the text an asynchronous output has written is that of events logged to it whose level reaches its threshold, each at most as often as it was logged, and the events of one goroutine in the order in which it logged them.", "quantifier": "every program of any number of goroutines, every interleaving, every moment, every configuration", "why_tests_cant": "Programs, schedules and crash points are unbounded.", "anchors": ["internal/logger.go:defWriter.write", "internal/logger_manager.go:defManager.Close", "internal/output_base.go:asyncOutput.Send", "internal/output_base.go:asyncOutput.Close", "internal/output_base.go:asyncOutput.loop"]}
{"id": "C86", "title": "A program that closes nothing loses nothing", "statement": "As long as a program has not closed an output, what the output has written and what it still has to write is together, for each goroutine, everything it has logged by calls that have returned, plus perhaps a part of the call it is in; an asynchronous output has fewer events still to write than queue and batch hold together, a synchronous or syslog output none.", "quantifier": "every program of any number of goroutines, every interleaving, every moment, every configuration, console, memory, rolling and syslog outputs", "why_tests_cant": "Programs and schedules are unbounded.", "anchors": ["internal/logger.go:defWriter.write", "internal/logger_manager.go:defManager.Close", "internal/output_base.go:asyncOutput.Send", "internal/output_base.go:asyncOutput.Close", "internal/output_base.go:asyncOutput.loop", "internal/output_base.go:baseOutput.Send", "internal/output_syslog.go:syslogOutput.Send"]}
{"id": "C87", "title": "Closing the manager waits until all events are written", "statement": "When Close of the manager returns, every event logged by a call that had returned when Close was called has been written by the outputs it was sent to.", "quantifier": "every program of any number of goroutines, every interleaving, every configuration", "why_tests_cant": "Programs and schedules are unbounded; the loss depends on when a goroutine starts to run.", "anchors": ["internal/logger.go:defWriter.write", "internal/logger_manager.go:defManager.Close", "internal/output_base.go:asyncOutput.Send", "internal/output_base.go:asyncOutput.Close", "internal/output_base.go:asyncOutput.loop"]}
{"id": "C88", "title": "Logging and closing do not panic", "statement": "In a program that leaves the closing of outputs to the manager, no log call, no worker and no Close of the manager panics, however they overlap.", "quantifier": "every program of any number of goroutines, every interleaving", "why_tests_cant": "Programs and schedules are unbounded; a race shows up only by chance.", "anchors": ["internal/logger.go:defWriter.write", "internal/logger_manager.go:defManager.Close", "internal/output_base.go:asyncOutput.Send", "internal/output_base.go:asyncOutput.Close", "internal/output_base.go:asyncOutput.loop"]}
{"id": "C89", "title": "Closing the manager comes to an end", "statement": "Close of the manager can return from wherever it is, without help from other goroutines of the program: only the workers of the outputs need to run. (In programs that leave the closing of outputs to the manager, and have not panicked.)", "quantifier": "every program of any number of goroutines, every interleaving, every state of queues and workers", "why_tests_cant": "A deadlock depends on schedules and on full queues.", "anchors": ["internal/logger.go:defWriter.write", "internal/logger_manager.go:defManager.Close", "internal/output_base.go:asyncOutput.Send", "internal/output_base.go:asyncOutput.Close", "internal/output_base.go:asyncOutput.loop"]}
{"id": "C90", "title": "After the manager is closed nothing is written", "statement": "Once Close of the manager has returned, log calls write nothing any more to the outputs that existed.", "quantifier": "every program of any number of goroutines, every interleaving, every continuation after Close", "why_tests_cant": "Programs, schedules and continuations are unbounded.", "anchors": ["internal/logger.go:defWriter.write", "internal/logger_manager.go:defManager.Close", "internal/output_base.go:asyncOutput.Send", "internal/output_base.go:asyncOutput.Close", "internal/output_base.go:asyncOutput.loop", "internal/output_base.go:baseOutput.Close"]}
{"id": "C91", "title": "A configuration set after closing the manager takes effect", "statement": "After Close of the manager, a configuration that is set makes its outputs work: what is logged to them is written.", "quantifier": "every program, every configuration set after Close, every continuation", "why_tests_cant": "Histories and configurations are unbounded.", "anchors": ["internal/logger.go:defWriter.write", "internal/logger_manager.go:defManager.Close", "internal/output_base.go:asyncOutput.Send", "internal/output_base.go:asyncOutput.Close", "internal/output_base.go:asyncOutput.loop", "internal/logger_manager.go:defManager.GetLoggerOutputs"]}
{"id": "C92", "title": "A log call that waits for a full queue goes on", "statement": "As long as nothing has been closed, a log call or Send can return from wherever it is, without help from other goroutines of the program: only the workers of the outputs need to run.", "quantifier": "every program of any number of goroutines, every interleaving, every state of queues", "why_tests_cant": "A deadlock depends on schedules and on full queues.", "anchors": ["internal/logger.go:defWriter.write", "internal/logger_manager.go:defManager.Close", "internal/output_base.go:asyncOutput.Send", "internal/output_base.go:asyncOutput.Close", "internal/output_base.go:asyncOutput.loop"]}
{"id": "C93", "title": "Rolling outputs in one directory do not disturb each other", "statement": "Several rolling outputs whose files have different names and are in one directory keep their logs as if each were alone: of each, the log file and its backups hold a gap-free final part of what it was given, however their writes and rolls overlap, whatever fails and whoever dies; other files are not touched.", "quantifier": "any number of writers with any configurations, every initial directory, every interleaving of their system calls, every failure and crash", "why_tests_cant": "Overlapping rolls and crash points cannot be enumerated.", "anchors": ["internal/output_rolling.go:newRollingFileOutput", "internal/output_rollingwriter.go:rollingFileWriter.Write", "internal/output_rollingwriter.go:rollingFileWriter.roll", "internal/output_rollingwriter.go:rollingFileWriter.getSortedLogHistory", "internal/output_rollingwriter.go:rollingFileWriter.deleteOldRolls", "internal/output_rollingwriter.go:rollingFileWriter.createFileAndFolderIfNeeded"]}
{"id": "C94", "title": "Outputs that share one file", "statement": "When two rolling outputs are given the same file, no message is lost: what is written successfully is in the log file or a backup.", "quantifier": "any number of writers with the same file, every interleaving of their system calls, every initial directory", "why_tests_cant": "Which file a writer has open while another renames it depends on the schedule.", "anchors": ["internal/output_rolling.go:newRollingFileOutput", "internal/output_rollingwriter.go:rollingFileWriter.Write", "internal/output_rollingwriter.go:rollingFileWriter.roll", "internal/output_rollingwriter.go:rollingFileWriter.getSortedLogHistory", "internal/output_rollingwriter.go:rollingFileWriter.deleteOldRolls", "internal/output_rollingwriter.go:rollingFileWriter.createFileAndFolderIfNeeded"]}
{"id": "C95", "title": "What is logged is in the files, whatever overlaps", "statement": "Of a program with rolling outputs whose files keep out of each other's way: at any moment, if no call to the operating system failed for an output that has not been closed, its backups and log file hold, behind what was there before and except for whole old backups that rolling removed, the text of every event each goroutine has logged to it, in its order, up to the events that still wait in queue and batch (asynchronous output) or the line being written (synchronous output, for which a log call that has returned has its line in the file); once Close of the manager has returned (the worker having begun before), nothing is missing; and if calls fail, the files hold what the writer could write of consecutive batches.", "quantifier": "every program of any number of goroutines, every interleaving of their steps with the workers and with the system calls of any number of writers in any directories, every moment, every initial directory, size and time rolling", "why_tests_cant": "Programs, schedules, crash points and directories are unbounded.", "anchors": ["internal/logger.go:defWriter.write", "internal/logger_manager.go:defManager.Close", "internal/output_base.go:asyncOutput.Send", "internal/output_base.go:asyncOutput.Close", "internal/output_base.go:asyncOutput.loop", "internal/output_rolling.go:newRollingFileOutput", "internal/output_rollingwriter.go:rollingFileWriter.Write", "internal/output_rollingwriter.go:rollingFileWriter.roll", "internal/output_rollingwriter.go:rollingFileWriter.getSortedLogHistory", "internal/output_rollingwriter.go:rollingFileWriter.deleteOldRolls", "internal/output_rollingwriter.go:rollingFileWriter.createFileAndFolderIfNeeded"]}
{"id": "C96", "title": "Writing to files never stops the program", "statement": "Whatever the operating system answers to the writers and whatever is being written at the moment, everything a program could do if writing were instantaneous it can still do: every log call or Send can return as long as nothing has been closed, and Close of the manager can return, with no help but that of the workers and writers.", "quantifier": "every program, every reachable state (also in the middle of writes of any number of outputs), every way in which the operating system can answer the calls, success or failure", "why_tests_cant": "A state in which nobody can go on may need a particular schedule and particular answers.", "anchors": ["internal/logger.go:defWriter.write", "internal/logger_manager.go:defManager.Close", "internal/output_base.go:asyncOutput.Send", "internal/output_base.go:asyncOutput.Close", "internal/output_base.go:asyncOutput.loop", "internal/output_rolling.go:newRollingFileOutput", "internal/output_rollingwriter.go:rollingFileWriter.Write", "internal/output_rollingwriter.go:rollingFileWriter.roll", "internal/output_rollingwriter.go:rollingFileWriter.getSortedLogHistory", "internal/output_rollingwriter.go:rollingFileWriter.deleteOldRolls", "internal/output_rollingwriter.go:rollingFileWriter.createFileAndFolderIfNeeded"]}
{"id": "C97", "title": "Calls return", "statement": "In a program that goes on for ever under a fair scheduler, whatever the operating system answers, every log call and every Send to outputs that are never closed returns, and every Close of the manager that gets the lock returns if the program leaves the closing of outputs to the manager, so that the manager's lock is free again and again. (Fair: the goroutine in the call, the workers and the writers each make a step again and again if they can again and again.)", "quantifier": "every infinite run of every program of any number of goroutines, every fair interleaving of their steps with the workers and the system calls of the writers, every answer of the operating system", "why_tests_cant": "A starved call needs an infinite run; tests see finite ones.", "anchors": ["internal/logger.go:defWriter.write", "internal/logger_manager.go:defManager.Close", "internal/output_base.go:asyncOutput.Send", "internal/output_base.go:asyncOutput.Close", "internal/output_base.go:asyncOutput.loop", "internal/output_rolling.go:newRollingFileOutput", "internal/output_rollingwriter.go:rollingFileWriter.Write", "internal/output_rollingwriter.go:rollingFileWriter.roll", "internal/output_rollingwriter.go:rollingFileWriter.getSortedLogHistory", "internal/output_rollingwriter.go:rollingFileWriter.deleteOldRolls", "internal/output_rollingwriter.go:rollingFileWriter.createFileAndFolderIfNeeded"]}
{"id": "C98", "title": "What is logged is written without Close", "statement": "In a program that goes on for ever under a scheduler that is fair to workers, tickers and writers, everything logged to an asynchronous output that is never closed is written: for every moment there is a later one at which the output has written everything every goroutine had logged, in its order, and (rolling output, no call to the operating system failed) the backups and the log file hold exactly these texts behind what was there before, except for whole old backups that rolling removed.", "quantifier": "every infinite run of every program of any number of goroutines, every fair interleaving, every moment, every initial directory, size and time rolling", "why_tests_cant": "That something happens at last is no property of finite runs.", "anchors": ["internal/logger.go:defWriter.write", "internal/logger_manager.go:defManager.Close", "internal/output_base.go:asyncOutput.Send", "internal/output_base.go:asyncOutput.Close", "internal/output_base.go:asyncOutput.loop", "internal/output_rolling.go:newRollingFileOutput", "internal/output_rollingwriter.go:rollingFileWriter.Write", "internal/output_rollingwriter.go:rollingFileWriter.roll", "internal/output_rollingwriter.go:rollingFileWriter.getSortedLogHistory", "internal/output_rollingwriter.go:rollingFileWriter.deleteOldRolls", "internal/output_rollingwriter.go:rollingFileWriter.createFileAndFolderIfNeeded"]}
{"id": "C99", "title": "Lines come in the order of the calls, across goroutines", "statement": "If a log call (or Send) returned before another one began, whichever goroutines made them, the event of the first comes before that of the second in every output both went to, synchronous, asynchronous or syslog, in its log files too; and the event of every call that has returned is there (asynchronous output: written or waiting, as long as the program has not closed it).", "quantifier": "every program of any number of goroutines, every interleaving, every pair of calls, every moment", "why_tests_cant": "Which goroutine's event gets into a queue or file first depends on the schedule.", "anchors": ["internal/logger.go:defWriter.write", "internal/logger_manager.go:defManager.Close", "internal/output_base.go:asyncOutput.Send", "internal/output_base.go:asyncOutput.Close", "internal/output_base.go:asyncOutput.loop"]}
{"id": "C100", "title": "The size limit holds over restarts", "statement": "However often a program dies or starts anew, every log file and backup it makes stays below the limit plus the length of one write.", "quantifier": "every history of writes, crashes (at every point of a write) and restarts, every failure, every positive limit", "why_tests_cant": "Histories of any length; a short-lived program shows nothing wrong in a single run.", "anchors": ["internal/output_rollingwriter.go:rollingFileWriterSize.needsToRoll", "internal/output_rollingwriter.go:createFileAndFolderIfNeeded", "internal/output_rollingwriter.go:Write"]}
{"id": "C101", "title": "A signal does not stop logging", "statement": "In a program that closes nothing itself, what log calls that return are given is written sooner or later, and no output makes a log call panic, whether or not SIGINT or SIGTERM has come.", "quantifier": "every program of any number of goroutines that leaves the manager and its outputs open, every interleaving, every number and moment of signals", "why_tests_cant": "The signal must come at every point of every log call of every goroutine.", "anchors": ["internal/log4g.go:init", "internal/log4g.go:listenSig", "internal/logger_manager.go:Close", "internal/output_base.go:Send", "internal/output_base.go:Close"]}
{"id": "C102", "title": "What was logged before SIGINT or SIGTERM is not lost", "statement": "When the first SIGINT or SIGTERM has come the library closes the manager, once. Without further calls by the program, and however the operating system answers, it can get to where, and under a scheduler that is fair to the goroutines of the library it does get to where, every asynchronous output has written what the log calls that had returned before the signal were given, in their order; when its Close has returned, and the worker had begun by when it was done waiting, this is written; if no call to the operating system failed (except perhaps for archives) it is in the files of the rolling outputs. Without a signal the library closes nothing.", "quantifier": "every program of any number of goroutines that leaves the manager and its outputs open, every interleaving, every moment of the signal, every behaviour of the operating system, every initial directory", "why_tests_cant": "The signal must come at every point of every call of every goroutine, worker and writer.", "anchors": ["internal/log4g.go:init", "internal/log4g.go:listenSig", "internal/logger_manager.go:Close", "internal/output_base.go:run", "internal/output_base.go:Close", "internal/output_rollingwriter.go:Write"]}
{"id": "C103", "title": "The options of an output mean what they say", "statement": "For every definition of a console, rolling file or syslog output: it goes through a queue exactly when async is \"true\"; threshold is the level named by threshold; the length of the queue comes from queue_size and the size of batches from batch_num (defaults 1000 and 20, at most 100000 and 500); a rolling output writes the file named by file in its directory (\".\" if it names none), keeps as many backups as backups says (default 5, at most 20), puts the number or period before the name exactly when name_mode is \"prefix\", archives exactly when archive is \"zip\" or \"gzip\", and rolls by size or by pattern according to its type.", "quantifier": "every combination of options and every value of each, of every length", "why_tests_cant": "Option values are arbitrary strings and combine freely.", "anchors": ["internal/output_rolling.go:NewRollingOutput", "internal/output_console.go:NewConsoleOutput", "internal/output_syslog.go:NewSyslogOutput", "internal/output_base.go:GetQueueSize", "internal/output_base.go:GetBatchNum", "internal/output_rollingwriter.go:newRollingFileWriter"]}
{"id": "C104", "title": "A line shows the arguments as they were when the message was logged", "statement": "What an output writes for an event is the text of its arguments at the time of the log call (or Send), whatever the program does with the memory they refer to after the call has returned.", "quantifier": "every program of any number of goroutines, every interleaving with the worker, every change of memory at every moment, every formatter", "why_tests_cant": "The change must come between the call and the moment the worker formats the event.", "anchors": ["internal/output_base.go:Send", "internal/output_base.go:loop", "internal/logger.go:write", "api/logger_api.go:Event"]}
{"id": "C105", "title": "A configuration takes effect when it is set, not when it is changed", "statement": "SetConfig uses the configuration as it is when it is called: changing the object afterwards changes nothing, and a configuration SetConfig has refused has no effect.", "quantifier": "every program, every number of configuration objects, every order of calls and changes", "why_tests_cant": "Histories of calls and changes of any length; a logger asked for later may show the difference.", "anchors": ["internal/logger_manager.go:setConfig", "internal/logger_manager.go:SetConfig", "internal/logger_manager.go:GetLoggerOutputs", "internal/logger_factory.go:GetLogger"]}
{"id": "C106", "title": "An argument may log while it is formatted", "statement": "If formatting an event calls a String or Error method that itself logs to the same output, log calls return and both lines are written like any others.", "quantifier": "every program of any number of goroutines, every interleaving with the worker, every queue size, any number and depth of events logged while formatting", "why_tests_cant": "Whether the worker finds its own queue full depends on the schedule and on how fast the program logs.", "anchors": ["internal/output_base.go:Send", "internal/output_base.go:loop", "api/logger_api.go:Message"]}
{"id": "C107", "title": "An output that cannot be made costs nothing else", "statement": "If an output named by a logger cannot be made (the syslog daemon does not answer), the logger gets its level and its other outputs all the same; loggers that do not name this output get their configuration in any case.", "quantifier": "every history of calls, every configuration, every logger, every answer of the creators", "why_tests_cant": "Which loggers exist, and which outputs have been made, depends on the history of calls.", "anchors": ["internal/logger_manager.go:GetLoggerOutputs", "internal/logger_factory.go:GetLogger", "internal/logger_factory.go:notify", "internal/output_syslog.go:NewSyslogOutput"]}
{"id": "C108", "title": "A logger has the outputs it was given", "statement": "The outputs of a logger are those that were in the slice when SetOutputs was called with it, until the next call that gives it outputs: what the program assigns to elements of its slice later changes no logger.", "quantifier": "every history of calls and of assignments to elements of slices, any number of slices, loggers that share them", "why_tests_cant": "Whether a slice is still in use by a logger depends on the history of calls.", "anchors": ["internal/logger.go:SetOutputs", "internal/logger.go:write", "internal/logger_factory.go:notify"]}
{"id": "C109", "title": "An output is made by the creator registered last for its type", "statement": "Every output and every formatter the library has made from a configuration was made in some call, from its definition, by the creator that had been registered last for its type before that call, and that creator reported no error. A type for which no creator was registered yields no output.", "quantifier": "every history of calls, every set of creators, registered in any order and any number of times, every answer of the creators", "why_tests_cant": "Which creator counts depends on the whole history of registrations and on when the output was first needed.", "anchors": ["internal/logger_manager.go:RegisterOutputCreator", "internal/logger_manager.go:RegisterFormatterCreator", "internal/logger_manager.go:GetLoggerOutputs"]}
{"id": "C110", "title": "Code the library calls may use the library", "statement": "A registered creator, or the Close of an output, may itself call the library (obtain a logger, register a creator, set a configuration, ask for outputs, log): its calls return, and so does the call that led to it.", "quantifier": "every history of calls, every call, every creator and output, any number of calls made by each", "why_tests_cant": "A lock is waited for only in particular histories: when the creator is called for the first time, from within particular calls.", "anchors": ["internal/logger_manager.go:GetLoggerOutputs", "internal/logger_manager.go:Close", "internal/logger_factory.go:GetLogger", "internal/logger_factory.go:notify"]}
{"id": "C111", "title": "A creator that panics does no lasting harm", "statement": "If a creator or the Close of an output panics and the program recovers, then once this code behaves the library is as usable as before: calls return, obtaining a logger again gives it its entry, and a configuration that is set gives every logger its level and outputs.", "quantifier": "every history of calls, panics at any creator call, everything the program does afterwards", "why_tests_cant": "The panic must come at every point at which creators are called, and its effect shows only later.", "anchors": ["internal/logger_factory.go:getRootLogger", "internal/logger_factory.go:GetLogger", "internal/logger_manager.go:GetLoggerOutputs", "internal/logger_manager.go:Close"]}
{"id": "C112", "title": "Backups that cannot be removed do no harm", "statement": "Whatever fails, removals of old backups included, the newest backups (as many as configured, once any file has been dropped) and the current file are a gap-free final part of the log, and a backup that should have been removed but is still there is a whole earlier part of the log, in its place in the order.", "quantifier": "every sequence of messages, every pattern of failures of any call, every point at which the process dies, any number of restarts, size and time rolling", "why_tests_cant": "Histories of failures and deaths of any length; a backup left over by one roll is in the way of all later ones.", "anchors": ["internal/output_rollingwriter.go:deleteOldRolls", "internal/output_rollingwriter.go:roll", "internal/output_rollingwriter.go:getSortedLogHistory", "internal/output_rollingwriter.go:Write"]}
{"id": "C113", "title": "The newest part of the log is always there", "statement": "A message whose write succeeded is in the log file or in a backup, in one piece, as long as the writer has not rolled more often since than it keeps backups; with size rolling that is so as long as less than the number of backups times the size limit has been written since. Nothing that fails and no crash or restart in between takes it away. One roll more can. So, when nothing fails, the text of an event accepted by an output with such a writer is in the files as long as the events after it have fewer bytes than that (for an asynchronous output: from when a batch is full after it, or the output is closed). That is so in whole programs, whatever other outputs write to the same directory under names of their own.", "quantifier": "every sequence of messages of any sizes, every limit and number of backups, every pattern of failures of any call (removals included), every point at which the process dies, any number of restarts, any backups there at first", "why_tests_cant": "How long a message stays depends on the whole history after it, which is unbounded.", "anchors": ["internal/output_rollingwriter.go:Write", "internal/output_rollingwriter.go:roll", "internal/output_rollingwriter.go:deleteOldRolls", "internal/output_rollingwriter.go:needsToRoll"]}
{"id": "C114", "title": "An event is formatted with the formatter that was set when it was sent", "statement": "However Send and SetFormatter calls on an output are mixed, each accepted event is written as the formatter says that was set last before it was sent; a synchronous output without formatter uses the default layout, a syslog output the message.", "quantifier": "every sequence of Send and SetFormatter calls, every formatter, threshold and event; for asynchronous outputs every interleaving with the worker", "why_tests_cant": "Sequences are unbounded; with a worker, whether the formatter is changed between sending and writing is a matter of scheduling.", "anchors": ["api/logger_api.go:Output.SetFormatter", "internal/output_base.go:baseOutput.SetFormatter", "internal/output_base.go:baseOutput.Send", "internal/output_base.go:asyncOutput.loop", "internal/output_syslog.go:syslogOutput.SetFormatter"]}
{"id": "C115", "title": "Caller information is right also for formatters that are set later", "statement": "An event carries the caller information the formatter of a receiving output wants, whenever the formatter was set on the output, so that the line written names the place of the log call.", "quantifier": "every history of API calls and SetFormatter calls on any outputs, every logger, depth of delegation, method and call stack", "why_tests_cant": "Whether the information is there depends on the order of SetFormatter calls and of everything that gives outputs to loggers.", "anchors": ["internal/logger.go:defLogger.SetOutputs", "internal/logger.go:defWriter.write", "internal/output_base.go:baseOutput.CallerInfoFlag", "internal/output_base.go:baseOutput.SetFormatter"]}
{"id": "C116", "title": "With one archive per backup, nothing is lost", "statement": "With an archive for each backup: wherever a write stops and whatever fails, each file in the archive directory is as it was or the complete archive of one of the backups being dropped; as long as nothing fails, the archived backups, the backups still there and the log file, oldest first, hold everything that was there at first and has been written since, and no other archive is touched.", "quantifier": "every history of writes, every failing call and crash point; size and time rolling, both archive formats", "why_tests_cant": "The archives depend on all rolls so far; crash points are in the middle of writing an archive.", "anchors": ["internal/output_rollingwriter.go:archiveExplodedLogs", "internal/output_rollingwriter.go:deleteOldRolls", "internal/output_rollingwriter.go:rollingArchiveTypeName"]}
{"id": "C117", "title": "A formatter or output that panics costs only its own line", "statement": "When Format of a formatter written by the user, or Send of an output written by the user, panics over an event, only this event is missing, and only from this output: the other outputs get it, all other events are written as usual, and the program can go on.", "quantifier": "every sequence of log calls, any number of outputs of any kind, every formatter and output that panics over whichever events, every interleaving of senders and worker", "why_tests_cant": "Which outputs come before or after the one that panics, which events wait in a buffer and when the worker takes the event depend on the configuration, the history and the schedule.", "anchors": ["internal/logger.go:defWriter.write", "internal/output_base.go:baseOutput.Send", "internal/output_base.go:asyncOutput.loop", "internal/output_syslog.go:syslogOutput.Send", "api/logger_api.go:Formatter", "api/logger_api.go:Output"]}
{"id": "C118", "title": "Time rolling follows the calendar", "statement": "With time rolling, whatever the pattern and the time zone, as long as the system clock does not go back: the name of a backup tells the year, month, day, hour, minute or second (down to what the pattern shows) in which everything in it was written; the backups and the log file, in the order of these periods, are a gap-free final part of the log.", "quantifier": "every pattern, every time zone, every instant (leap years included), every history of writes and restarts", "why_tests_cant": "There are infinitely many patterns and instants; the failures need the turn of the year or the end of summer time.", "anchors": ["internal/output_rollingwriter.go:rollingFileWriterTime.needsToRoll", "internal/output_rollingwriter.go:rollingFileWriterTime.isFileRollNameValid", "internal/output_rollingwriter.go:rollTimeFileTailsSlice.Less", "internal/output_rollingwriter.go:rollingFileWriterTime.getNewHistoryRollFileName", "internal/output_rolling.go:NewRollingOutput"]}
{"id": "C119", "title": "With time rolling, a message is found by its time", "statement": "With time rolling, when the names of periods grow with time and neither the system clock nor the clock of the time zone goes back into a period that is over: whatever fails and however often the program dies and is started again, a backup holds nothing that was written after its period, and everything written later than what it holds was written after its period; the log file holds only what was written after the periods of all backups. As long as files can be removed, every message whose period is not older than all backups is in the first backup of its period or a later one, or in the log file if there is none, right between its neighbours.", "quantifier": "every history of writes, failing calls, crashes and restarts; every message, every time zone and pattern as described", "why_tests_cant": "Where a message ends up depends on all rolls, failures and restarts before and after it.", "anchors": ["internal/output_rollingwriter.go:Write", "internal/output_rollingwriter.go:roll", "internal/output_rollingwriter.go:rollingFileWriterTime.needsToRoll", "internal/output_rollingwriter.go:rollingFileWriterTime.getNewHistoryRollFileName", "internal/output_rollingwriter.go:deleteOldRolls"]}
{"id": "C120", "title": "Nothing is lost as long as the operating system does what it can", "statement": "With every configuration of a rolling output that is accepted: as long as the operating system refuses no call that it could carry out, every write succeeds and writes the whole message, through rolls, crashes and restarts.", "quantifier": "every configuration of a rolling output, every content of the directory, every history of writes, crashes and restarts; archives and removals may fail", "why_tests_cant": "Which call can be carried out depends on the names the configuration gives and on the history; the failures come with the first roll, after any number of messages.", "anchors": ["internal/output_rolling.go:NewRollingOutput", "internal/output_rollingwriter.go:newRollingFileWriter", "internal/output_rollingwriter.go:createFileAndFolderIfNeeded", "internal/output_rollingwriter.go:roll", "internal/output_rollingwriter.go:Write"]}
{"id": "C121", "title": "Time rolling takes only files named after its periods for its own", "statement": "With time rolling a file in the log directory is changed, renamed or removed only if it is the log file or has the name of a backup of a period of the calendar; files with such names count as backups.", "quantifier": "every pattern of the fields of date and time, every time zone, every directory content, every history of writes, failing calls, crashes and restarts", "why_tests_cant": "There are infinitely many names, and what the pattern accepts is decided by a parser that is more generous than the names it makes.", "anchors": ["internal/output_rollingwriter.go:rollingFileWriterTime.isFileRollNameValid", "internal/output_rollingwriter.go:rollingFileWriter.hasRollName", "internal/output_rollingwriter.go:rollingFileWriter.getSortedLogHistory", "internal/output_rollingwriter.go:rollingFileWriterTime.getNewHistoryRollFileName"]}
{"id": "C122", "title": "A rolling output has one file open at a time, and none while it rolls", "statement": "A rolling output opens its log file only when it has no file open, writes only to the file it has open, and lets go of it before it renames, removes or archives anything; so it never has more than one log file open, however many rolls, failures and restarts there are.", "quantifier": "every configuration of rolling outputs, every sequence of messages, every answer of the operating system to every call, every point at which the process dies, any number of outputs and goroutines", "why_tests_cant": "The file that is open depends on the results of all calls before; a leak shows after any number of rolls with a particular failure among them.", "anchors": ["internal/output_rollingwriter.go:Write", "internal/output_rollingwriter.go:roll", "internal/output_rollingwriter.go:createFileAndFolderIfNeeded", "internal/output_rollingwriter.go:deleteOldRolls"]}
{"id": "C123", "title": "Closing the manager lets go of the log files", "statement": "When Close of the manager has returned, no output has a log file open.", "quantifier": "every program, every configuration, every schedule of goroutines, every result of calls to the operating system", "why_tests_cant": "It is about every state a program can be in when it closes the manager.", "anchors": ["internal/logger_manager.go:Close", "internal/output_base.go:Close", "internal/output_rolling.go:NewRollingOutput", "internal/output_rollingwriter.go:Close"]}
{"id": "C124", "title": "The times in a log go forward", "statement": "If the clock does not go back, the times shown by the successive lines an output writes do not go back.", "quantifier": "every program, every configuration, every schedule of goroutines, every way the clock advances", "why_tests_cant": "It is about all interleavings of the goroutines that log; the case that breaks it needs a switch of goroutines between two particular steps.", "anchors": ["internal/logger.go:write", "internal/output_base.go:Send", "internal/output_memory.go:Send", "internal/output_base.go:write"]}
{"id": "C125", "title": "What appears on the console is whole lines, in order", "statement": "Whatever console outputs a program has, synchronous or not, what appears on the console is a sequence of whole pieces, each the line of one event sent to a synchronous console output, or the lines of one batch of an asynchronous one. The lines of each output appear in the order in which each goroutine logged them, and those of calls of a synchronous output that have returned are there. Lines of calls that do not overlap appear in the order of the calls, whichever synchronous outputs print them.", "quantifier": "every program, every number of goroutines and outputs, every schedule", "why_tests_cant": "It is about all interleavings of the goroutines that log and of those that write batches, over any number of outputs that share one console.", "anchors": ["internal/output_console.go:NewConsoleOutput", "internal/output_base.go:Send", "internal/output_base.go:flush", "internal/output_base.go:loop", "internal/logger.go:write"]}
{"id": "C126", "title": "A log takes limited space", "statement": "With rolling by size, at every moment the log file and its backups are at most the number of backups to keep and one more files, and together have fewer bytes than that many times the size limit plus the longest write: the longest line for a synchronous output, batch_num lines for an asynchronous one. Backups that were there at first count if there are more of them than are kept. Each removal of a backup that fails, and each time the program dies while it writes, may leave one more file; each new start lets a file become longer by one message. For rolling by time the number of files is limited in the same way. Other outputs may use the same directory. Archives are not counted.", "quantifier": "every sequence of messages, every failure of the operating system, every moment of every write, every number of deaths and new starts; whole programs with any outputs, goroutines and schedules", "why_tests_cant": "The limit must hold at each of the moments inside a roll, after any history of failures and restarts, for logs of any length.", "anchors": ["internal/output_rollingwriter.go:Write", "internal/output_rollingwriter.go:roll", "internal/output_rollingwriter.go:deleteOldRolls", "internal/output_rollingwriter.go:needsToRoll", "internal/output_rolling.go:NewRollingOutput"]}
{"id": "C127", "title": "What goes wrong is reported on standard error", "statement": "When a message is lost because a write to a file fails, or because no logger from the one it was logged to up to the root has an output, or when a backup cannot be removed, a line on standard error says so; and as long as nothing goes wrong the library prints nothing there.", "quantifier": "every program, every configuration, every number of goroutines, every schedule, every failure of the operating system", "why_tests_cant": "It is about all programs and all ways in which calls to the operating system can fail; a test sees the output of one run.", "anchors": ["internal/logger.go:write", "internal/output_base.go:Send", "internal/output_base.go:flush", "internal/output_rollingwriter.go:newRollingFileWriter", "internal/output_rollingwriter.go:deleteOldRolls", "internal/output_fsutil.go:reportInternalError", "internal/output_fsutil.go:tryRemoveFile"]}
{"id": "C128", "title": "What is sent to syslog arrives", "statement": "Each event sent to a syslog output at one of the named levels at or above the threshold reaches the daemon once, in the order of the calls, with the severity of its level, the tag of the output (its option prefix, or the name of the program) and a line break at the end; a connection that breaks is replaced. An output has at most one connection to the daemon, and when Close of the manager has returned there is none.", "quantifier": "every program, every number of goroutines, every schedule, every way in which writes and attempts to connect fail", "why_tests_cant": "It is about all histories of breaking connections and of a daemon that comes and goes, and all interleavings of log calls and Close.", "anchors": ["internal/output_syslog.go:syslogOutput.Send", "internal/output_syslog.go:syslogOutput.Close", "internal/output_syslog.go:NewSyslogOutput", "internal/logger_manager.go:Close"]}
{"id": "C129", "title": "Goroutines do not race", "statement": "The library may be used from any number of goroutines: whatever calls of its API they make at the same time, there is no data race in the sense of the Go memory model, that is, no two goroutines access a variable, at least one of them writing, unless locks, channels, go statements, atomic variables, wait groups or the program itself put one access before the other.", "quantifier": "every program, every number of goroutines, loggers and outputs, every schedule, every configuration, every order the program sees to itself", "why_tests_cant": "A race detector reports races of the runs it watches; the claim is about every interleaving of every program.", "anchors": ["internal/logger.go:write", "internal/logger.go:SetOutputs", "internal/logger.go:SetLevel", "internal/logger_factory.go:GetLogger", "internal/logger_factory.go:notify", "internal/logger_manager.go:GetLoggerOutputs", "internal/logger_manager.go:SetConfig", "internal/logger_manager.go:Close", "internal/output_base.go:loop", "internal/output_base.go:Close", "internal/output_memory.go:NewMemoryOutput", "internal/logger_callerinfo.go:getCallerInfo"]}
{"id": "C130", "title": "A nil argument does no lasting harm", "statement": "When nil is passed for a configuration (SetConfig), an output (among those of SetOutputs), an event (Send) or a context (WithCtx), at most the call it is passed to, or for a context the log calls made with it, panics; a program that recovers the panic finds the library working as if the call had not been made.", "quantifier": "every program, every place and number of nil arguments, every schedule of an asynchronous output, every layout", "why_tests_cant": "A test can pass nil and see the panic; the claim is about everything that happens afterwards, in all schedules.", "anchors": ["internal/logger.go:SetOutputs", "internal/logger.go:WithCtx", "internal/logger.go:write", "internal/logger_manager.go:setConfig", "internal/output_base.go:Send", "internal/output_base.go:loop", "internal/output_syslog.go:Send", "internal/logger_callerinfo.go:getCallerInfo", "internal/format_parser.go:format"]}
{"id": "C131", "title": "The error of a refused configuration says what is wrong with it", "statement": "When SetConfig, or LoadConfig with a file that can be decoded, returns an error, it is about the first fault of the configuration, formats first, then outputs, then loggers: a format or output with the name of an earlier one, an output whose format is not defined, or a logger with an output that is not defined. The text of the error shows the names in brackets, and unless names have brackets themselves, it tells apart what is wrong and which names are meant.", "quantifier": "every configuration, every name, every state of the library", "why_tests_cant": "A test checks the errors of a few configurations; the claim is about all of them, and about any two errors.", "anchors": ["internal/logger_manager.go:validateConfig", "internal/logger_manager.go:setConfig", "internal/logger_manager.go:LoadConfig", "internal/logger_manager.go:GetLoggerOutputs"]}
{"id": "C132", "title": "Setting a configuration again changes nothing", "statement": "If a configuration that SetConfig or LoadConfig has just accepted is set or loaded again, it is accepted again and nothing changes: every logger has the same level and outputs as before and needs the same caller information, the outputs and formatters are the same instances, and no new ones are made. Creators are assumed to answer the same when they are given the same definition; those that fail may be called again.", "quantifier": "every history of calls before, every configuration, with outputs that can be made and such that cannot, every order in which the loggers are gone through, both times", "why_tests_cant": "It is about all configurations and all states of the library, and about the random order of Go's maps.", "anchors": ["internal/logger_manager.go:setConfig", "internal/logger_manager.go:LoadConfig", "internal/logger_manager.go:GetLoggerOutputs", "internal/logger_factory.go:notify", "internal/logger.go:SetOutputs"]}
{"id": "C133", "title": "What is done to one logger concerns only it and the loggers below it", "statement": "Setting the level or the outputs of a logger changes nothing for loggers that are neither it nor below it; setting the caller skip changes nothing for any other logger at all; obtaining loggers, of whatever names, registering creators, asking for outputs and configurations that are refused change nothing for existing loggers; a configuration that is accepted changes nothing for a logger if it has no entry for it or for a logger above it. That is, after any calls of these kinds, every log call through the logger sends the same events to the same outputs as before, and its level is the same.", "quantifier": "every history of calls before, every sequence of calls of these kinds, every logger, every log call with any level, format, arguments and context", "why_tests_cant": "It is about all sequences of calls and all trees of loggers; a test sees a few.", "anchors": ["internal/logger.go:SetLevel", "internal/logger.go:SetOutputs", "internal/logger.go:SetCallerSkip", "internal/logger.go:write", "internal/logger.go:Level", "internal/logger_factory.go:GetLogger", "internal/logger_factory.go:notify", "internal/logger_manager.go:setConfig"]}
{"id": "C134", "title": "The order in which SetConfig goes through the loggers does not matter", "statement": "SetConfig and LoadConfig go through the loggers in the random order of a map. Whatever the order: they answer the same; every logger ends up with the same level, needs the same caller information, and has the same outputs in the same order, that is, the instances there were before, or new ones made from the same definition, with the same formatter; and two loggers share an output after one order if and only if they do after the other. Creators are assumed to answer the same when they are given the same definition.", "quantifier": "every history of calls before, every configuration, with outputs that can be made and such that cannot, any two orders", "why_tests_cant": "Go chooses the order at random, and a test sees a few orders of a few loggers; if an entry fails half way, what it has made stays for the entries that come later.", "anchors": ["internal/logger_factory.go:notify", "internal/logger_manager.go:setConfig", "internal/logger_manager.go:LoadConfig", "internal/logger_manager.go:GetLoggerOutputs", "internal/logger.go:SetOutputs"]}
{"id": "C135", "title": "It does not matter whether loggers are obtained before or after the configuration is set", "statement": "A program that obtains loggers and then sets its first configuration, and one that sets the same configuration first and then obtains the same loggers in the same order, end up with the same loggers: each with the same level, parent, caller skip and need for caller information, with outputs made from the same definitions and formatters, in the same order, and shared in the same way; and each logger lets the same levels pass. Creators are assumed to answer the same when they are given the same definition.", "quantifier": "every set of registered creators, every accepted configuration, with outputs that can be made and such that cannot, every list of names, every order in which SetConfig goes through the loggers", "why_tests_cant": "Packages obtain loggers in their initialisation, before or after the configuration is read, in orders that depend on imports; a test has one order and a few names.", "anchors": ["internal/logger_factory.go:GetLogger", "internal/logger_factory.go:getParent", "internal/logger_factory.go:getRootLogger", "internal/logger_factory.go:createLogger", "internal/logger_factory.go:notify", "internal/logger_manager.go:setConfig", "internal/logger_manager.go:GetLoggerOutputs"]}
{"id": "C136", "title": "Which loggers there are follows from the names that were asked for; before the configuration is set, the order does not matter", "statement": "After any history of calls, a logger is there if and only if GetLogger was called with its name or the name of a logger below it; the root logger is there if and only if GetLogger was called at all. If two programs obtain the same loggers before they set their first configuration, in different orders and maybe several times, then SetConfig answers the same, and the loggers of the same names have the same level, caller skip and need for caller information, outputs made from the same definitions and formatters in the same order, shared in the same way, and let the same levels pass. Creators are assumed to answer the same when they are given the same definition.", "quantifier": "every history of calls, every name; every set of registered creators, every configuration, accepted or refused, any two lists of the same names, any two orders in which SetConfig goes through the loggers", "why_tests_cant": "Packages obtain loggers while the program is initialised, in an order that follows from imports and changes with them; a test has one order.", "anchors": ["internal/logger_factory.go:GetLogger", "internal/logger_factory.go:getParent", "internal/logger_factory.go:getRootLogger", "internal/logger_factory.go:createLogger", "internal/logger_factory.go:notify", "internal/logger_manager.go:setConfig", "internal/logger_manager.go:GetLoggerOutputs"]}
{"id": "C137", "title": "After the configuration is set, the order in which loggers are obtained does not matter", "statement": "Two programs that set the same first configuration and then obtain the same loggers, in different orders and maybe several times, end up with loggers that are set up alike: the loggers of the same names have the same level, caller skip and need for caller information, outputs made from the same definitions and formatters in the same order, and let the same levels pass. Creators are assumed to answer the same when they are given the same definition.", "quantifier": "every set of registered creators, every accepted configuration, with outputs that can be made and such that cannot, any two lists of the same names", "why_tests_cant": "Loggers are often obtained on first use, in an order that depends on the input or on scheduling; a test has one order.", "anchors": ["internal/logger_factory.go:GetLogger", "internal/logger_factory.go:getParent", "internal/logger_factory.go:getRootLogger", "internal/logger_factory.go:createLogger", "internal/logger_manager.go:setConfig", "internal/logger_manager.go:GetLoggerOutputs"]}
{"id": "C138", "title": "The order of the definitions in a configuration does not matter", "statement": "Two configurations with the same formats, outputs and loggers, listed in different orders, are both accepted or both refused; and whatever calls follow, a program that was given one has the same loggers, levels and outputs as it would have had with the other.", "quantifier": "every state of a program, every configuration and every reordering of its three lists, every order in which SetConfig goes through the loggers, every history of calls that follows, further configurations included", "why_tests_cant": "Configurations are merged and generated, and a list has too many orders; an order that matters shows only with some later call.", "anchors": ["api/logger_mange.go:GetCfgLogger", "api/logger_mange.go:GetCfgOutput", "api/logger_mange.go:GetCfgFormat", "internal/logger_manager.go:setConfig", "internal/logger_manager.go:validateConfig", "internal/logger_manager.go:GetLoggerOutputs"]}
{"id": "C139", "title": "Formats and outputs that no logger uses make no difference", "statement": "If two accepted configurations have the same loggers and one has further formats and outputs, then whatever calls follow, they are possible with one just when they are with the other, and a program has the same loggers, levels and outputs in either case: for a definition that no logger uses no creator runs, so nothing is made or opened for it, and none of the formatters and outputs that are made differs.", "quantifier": "every state of a program, any two accepted configurations one of which extends the other, every order in which SetConfig goes through the loggers, every history of calls that follows", "why_tests_cant": "A definition that is not used could matter through a call made much later, or through the order in which things are made.", "anchors": ["internal/logger_manager.go:setConfig", "internal/logger_manager.go:GetLoggerOutputs", "api/logger_mange.go:GetCfgOutput", "api/logger_mange.go:GetCfgFormat", "internal/logger_factory.go:notify", "internal/logger_factory.go:GetLogger"]}
{"id": "C140", "title": "Entries for loggers that a program does not obtain make no difference", "statement": "Take an accepted configuration and leave out the entries for some loggers, other than root, that are not there when it is set and that no later call obtains or asks the outputs of. It is accepted as well, the same calls can follow, and the program has the same loggers, levels and outputs as with those entries, also if a logger of such a name comes into being above one that is obtained. No creator runs for an entry of a logger that is not obtained.", "quantifier": "every state a program can be in, every accepted configuration, every list of names, every order in which SetConfig goes through the loggers, every later history that does not ask for those names, further configurations included", "why_tests_cant": "One configuration is shared by programs that use different parts of it; what an entry does to others shows only in some history.", "anchors": ["internal/logger_manager.go:setConfig", "internal/logger_manager.go:GetLoggerOutputs", "api/logger_mange.go:GetCfgLogger", "internal/logger_factory.go:GetLogger", "internal/logger_factory.go:getParent", "internal/logger_factory.go:getRootLogger", "internal/logger_factory.go:notify"]}
{"id": "C141", "title": "The order of the calls that set loggers up does not matter", "statement": "A program that sets levels, caller skips and outputs of loggers, each at most once per logger, ends up with the same loggers, set up in the same way, in whatever order it makes the calls.", "quantifier": "every state, every list of calls of SetLevel, SetCallerSkip and SetOutputs in which no two set the same of the same logger, every reordering of it", "why_tests_cant": "There are as many orders as permutations; a setter that reads or writes what another one writes is seen in some of them only.", "anchors": ["internal/logger.go:SetLevel", "internal/logger.go:SetCallerSkip", "internal/logger.go:SetOutputs"]}
{"id": "C142", "title": "Asking which outputs a logger has changes nothing", "statement": "A program that calls GetLoggerOutputs now and then ends up with the same loggers as one that makes the same calls but those: loggers of the same names with the same level, parent, caller skip and need for caller information, and outputs from the same definitions with the same formatters, in the same order. Creators are assumed to answer the same when they are given the same definition.", "quantifier": "every state a program can be in, every history of calls, with GetLoggerOutputs called for any names at any points", "why_tests_cant": "The call is named like a query but makes formatters and outputs; what that does to later calls depends on the whole history.", "anchors": ["internal/logger_manager.go:GetLoggerOutputs", "internal/logger_manager.go:setConfig", "internal/logger_factory.go:GetLogger", "internal/logger_factory.go:getRootLogger", "internal/logger.go:SetLevel", "internal/logger.go:SetCallerSkip"]}
{"id": "C143", "title": "Loggers can be set up before or after others are obtained", "statement": "A program that sets levels, caller skips and outputs of loggers it has, and obtains further loggers, ends up with the same loggers, set up in the same way, however the calls that set are put between the calls that obtain. In particular a logger takes no copy of the level or of the outputs of the loggers above it when it is obtained.", "quantifier": "every state a program can be in, every two sequences of calls of SetLevel, SetCallerSkip, SetOutputs (on loggers and outputs there are before) and GetLogger that have the same setting calls in the same order and the same obtaining calls in the same order", "why_tests_cant": "A program sets loggers up in one package and obtains loggers in others, in the order of their initialisation; the number of interleavings is exponential in the number of calls.", "anchors": ["internal/logger.go:SetLevel", "internal/logger.go:SetCallerSkip", "internal/logger.go:SetOutputs", "internal/logger_factory.go:GetLogger", "internal/logger_factory.go:getParent", "internal/logger_factory.go:getRootLogger", "internal/logger_factory.go:createLogger"]}
{"id": "C144", "title": "The last call that sets something of a logger counts", "statement": "A program that sets levels, caller skips and outputs of loggers, some of them several times, ends up with the same loggers as one that makes only the last of the calls that set the same: loggers with the same level, caller skip, outputs and need for caller information.", "quantifier": "every state, every list of calls of SetLevel, SetCallerSkip and SetOutputs", "why_tests_cant": "What an earlier call leaves behind can depend on any of the calls before and after it.", "anchors": ["internal/logger.go:SetLevel", "internal/logger.go:SetCallerSkip", "internal/logger.go:SetOutputs"]}
{"id": "C145", "title": "Of the creators registered for a type only the last counts, in whatever order they are registered", "statement": "Two programs that start by registering creators of formatters and outputs, so that for every type the last creator registered is the same in both, and then make the same calls, are in the same state: the same loggers with the same levels and outputs, the same outputs and formatters made by the same number of creator calls. In particular, if no type is registered twice, the order of the registrations does not matter.", "quantifier": "every state, every two lists of registrations with the same last creator for every type, every further history of calls, creators that answer anything", "why_tests_cant": "Packages register their creators in the order of their initialisation; whether the order shows could depend on any later call.", "anchors": ["internal/logger_manager.go:RegisterFormatterCreator", "internal/logger_manager.go:RegisterOutputCreator", "internal/logger_manager.go:GetLoggerOutputs", "internal/logger_manager.go:setConfig", "internal/logger_factory.go:GetLogger", "internal/logger_factory.go:notify"]}
{"id": "C146", "title": "A creator can be registered at any time before it is needed", "statement": "A program that registers a creator after some calls is in the same state as one that registers it before them (the same loggers, configuration, outputs and formatters, and the same creators for every type), provided that no configuration in force in the meantime defines a formatter or output of its type and that no other creator of its kind is registered for the type in the meantime.", "quantifier": "every state, every registration, every history of calls that does not need the creator, creators that answer anything", "why_tests_cant": "When a package is initialised relative to the other calls of a program is not in the hands of its author; whether it shows could depend on any call in between.", "anchors": ["internal/logger_manager.go:RegisterFormatterCreator", "internal/logger_manager.go:RegisterOutputCreator", "internal/logger_manager.go:GetLoggerOutputs", "internal/logger_manager.go:setConfig", "internal/logger_factory.go:GetLogger", "internal/logger_factory.go:notify"]}
