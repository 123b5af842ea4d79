# A formal model of xtfly/log4g in Lean 4

Source: `/repo` (Go, read as text, never built). Model and proofs: `/verif/lean/Verif`.

## Layout of the Lean project

| folder | content |
|---|---|
| `Verif/Model/*.lean`  | the executable model, function by function; every definition cites file and lines of `/repo` and says where it simplifies |
| `Verif/Spec/*.lean`   | small specifications that do not use the functions of the model (grammars, paths, gap-free logs ...) |
| `Verif/Lemmas/*.lean` | helper lemmas and invariants |
| `Verif/Props/*.lean`  | the property theorems `Cnn_...`, each followed by `example`s that show its hypotheses are met by a concrete case |

A property that the code violates gets (a) a theorem `Cnn_..._refuted` that proves the negation of the
full statement about the model, with a concrete witness, and (b) a theorem `Cnn_..._partial` that
says what does hold. `MANIFEST.json` marks such a property `partial`.

`seeded/LOG.jsonl` records wrong programs: an edit to the model, the claim it breaks, the theorems that then
fail, and what was tightened if none did.

## Properties: what is modelled and how it is proved

Notes on what a partial theorem leaves out are in `MANIFEST.json`; the findings are collected below.

* **C01** (proved) Level names are read without regard to case. Model: `Level`. The name table is any permutation of the table of the code, as a Go map may be iterated in any order; uniqueness of names makes the search independent of it.
* **C02** (proved) Level names round-trip and are distinct. Model: `Level`. By the same characterisation, over the entries of the table; undefined levels by the lookup failing.
* **C03** (proved) The level gate is a threshold. Model: `World`, `Logger`, `Event`. The gate of `write` is unfolded; levels of reachable worlds by C07.
* **C04** (partial) Off silences a logger. Model: `World`, `Logger`, `Event`. Witness for `Printf(Off, ..)`; the partial theorem for all other calls by the gate.
* **C05** (proved) The hierarchy is decided by names alone. Model: `World`, `Manager`. Invariant over all histories of API calls: names of parents are the longest proper prefixes that end before a separator.
* **C06** (proved) GetLogger returns one logger per name for ever. Model: `World`, `Manager`. Invariant: the map of loggers only grows and is injective.
* **C07** (proved) Level inheritance. Model: `World`, `Manager`. The chain of parents is well founded (parents have smaller numbers), so the walk ends; the specification is a relation on paths. `C07_unset`: over every history, a logger that nobody set and no configuration named has neither level nor outputs of its own.
* **C08** (proved) Output inheritance. Model: `World`, `Logger`, `Event`. Induction along the path.
* **C09** (partial) The logger's own level decides. Model: `World`, `Logger`, `Event`. Witness; exact characterisation by induction along the path.
* **C10** (partial) A configured logger gets its configuration however it came to exist. Model: `World`, `Manager`. Witness; the rest by the invariant that configuration happens at creation.
* **C11** (proved) An event is attributed to the logger the caller used. Model: `World`, `Logger`, `Event`. Case analysis over the twelve methods and `Printf`, induction along the path.
* **C12** (partial) Fields reach the output. Model: `World`, `Logger`, `Event`. Witness; the rest for a logger that delivers itself.
* **C13** (proved) The reported call site is the user's call. Model: `World`, `Logger`, `Event`. The call stack is an explicit list of frames, `runtime.Caller` an index into it; induction over the delegation.
* **C14** (partial) The reported call site of Printf is the user's call. Model: `World`, `Logger`, `Event`. As C13; witness.
* **C15** (proved) Caller information is captured in the calling goroutine. Model: `World`, `Manager`. Invariant over histories: the flag of a logger is at least that of each of its outputs.
* **C16** (partial) Logging never panics because of field names. Model: `World`, `Logger`, `Event`. Witness; exact characterisation.
* **C17** (proved) SetConfig accepts exactly the consistent configurations, and a rejected one changes nothing. Model: `Manager`, `World`. The three loops of `validateConfig` characterised by induction over the lists.
* **C18** (partial) Duplicate logger names are rejected. Model: `Manager`. Witness; the first entry counts (`find?`).
* **C19** (partial) LoadConfig reports what it cannot load. Model: `World`. The decoders are functions from bytes to what they leave behind and whether they complain.
* **C20** (partial) LoadConfigFile never panics. Model: `World`. `path.Ext` on character lists.
* **C21** (proved) After SetConfig every existing configured logger has its new configuration. Model: `World`, `Manager`. Induction over the order of notification, which is any permutation of the loggers.
* **C22** (proved) SetConfig leaves loggers without an entry alone. Model: `World`, `Manager`. Same induction.
* **C23** (proved) One instance per output name. Model: `World`, `Manager`. Invariant over histories; creators are arbitrary functions that may fail and may answer differently at each call.
* **C24** (partial) Redefining an output takes effect. Model: `World`, `Manager`. Witness; the invariant of C23.
* **C25** (proved) Concurrent SetConfig and GetLogger calls settle on the last configuration. Model: `Concurrent`. Transition system with goroutines at the granularity of the two locks; invariants by induction over executions.
* **C26** (proved) Root fallback. Model: `World`, `Manager`. Case of `getRootLogger`.
* **C27** (proved) GetLoggerOutputs answers in configuration order or names the first obstacle. Model: `Manager`. Induction over the names, against a declarative first obstacle.
* **C28** (proved) Queue size, batch size and backup count are always in range. Model: `Strconv`, `ConfigVals`. `Atoi` on character lists with 64-bit saturation, against a grammar of decimal numbers.
* **C29** (proved) File modes stay inside the permission bits. Model: `Strconv`, `ConfigVals`. `ParseInt` with base 0 against a grammar of integer literals, for Go before and since 1.13; `C29_rolling` says which option goes where.
* **C30** (partial) A size with a unit means number times unit. Model: `Strconv`, `ConfigVals`. Witness and exact meaning.
* **C31** (partial) The rolling size is positive. Model: `Strconv`, `ConfigVals`. Witness and exact characterisation.
* **C32** (proved) An unreadable threshold lets everything through. Model: `Strconv`, `ConfigVals`. By C01.
* **C33** (proved) A layout is cut into verbs and literal text without loss. Model: `Regex`, `Format`. A backtracking semantics of the regular expression of the code; the cut is characterised without it (`Cut`).
* **C34** (proved) Layout parsing inverts layout writing. Model: `Regex`, `Format`. Induction over the pieces, by C33's characterisation.
* **C35** (proved) A layout is rejected exactly when it has no verb. Model: `Regex`, `Format`. Same.
* **C36** (proved) A formatted line is the concatenation of its pieces. Model: `Regex`, `Format`. Induction over the pieces; `Value` is a relation that says what each verb prints. `fmt`, `time`, `os` are parameters.
* **C37** (proved) The message is printed as it is. Model: `Regex`, `Format`. From C36.
* **C38** (partial) The f-methods format, the plain methods print. Model: `Event`, `Format`, `Logger`. Witnesses; all cases over the twelve methods.
* **C39** (proved) Unknown verbs print fields. Model: `Regex`, `Format`. From C36; last value of a key in a list of fields.
* **C40** (proved) The caller-info flag is what the layout needs. Model: `Regex`, `Format`. Induction over the parts.
* **C41** (proved) Package and function split the qualified name. Model: `Format`. String search functions characterised by induction.
* **C42** (proved) A synchronous output writes exactly the accepted events, in order. Model: `Output`. Induction over the events.
* **C43** (proved) Syslog gets the right severity. Model: `Output`. Case analysis.
* **C44** (proved) An asynchronous output neither loses, duplicates nor reorders queued events. Model: `Async`. Transition system: any number of goroutines, each atomic access a step, the worker and its ticks; invariant over executions.
* **C45** (proved) Each sender's events keep their order. Model: `Async`. Invariant.
* **C46** (proved) A batch is bounded and a tick flushes it. Model: `Async`. Invariant with the grouping of events as ghost state.
* **C47** (partial) Close writes everything sent before it. Model: `Async`. Two witness schedules; the rest by invariants.
* **C48** (proved) Sending after Close is harmless. Model: `Async`. Invariant: returned `Close` implies the flag.
* **C49** (proved) Close may be repeated. Model: `Async`. Same.
* **C50** (partial) Send and Close never panic. Model: `Async`. Two witness schedules; who can panic, by invariant.
* **C51** (partial) Close terminates. Model: `Async`. Witness; a schedule that completes the call is constructed from every reachable state.
* **C52** (proved) Asynchronous and synchronous outputs write the same bytes. Model: `Async`, `Output`. From C44 and C42.
* **C53** (partial) An asynchronous output without formatter uses the default layout. Model: `Async`. Witness; invariant.
* **C54** (proved) Size rolling keeps a gap-free suffix of the log. Model: `Rolling`, `Disk`. The code is a program of calls to the operating system (`Prog`), each of which may fail; invariants over lives of writes, deaths and restarts.
* **C55** (proved) A message is never split over two files. Model: `Rolling`, `Disk`. From C54, with the chunk a write hands over.
* **C56** (proved) At most the configured number of backups remains. Model: `Rolling`, `Disk`. Invariant between rolls, post-condition of a roll.
* **C57** (proved) File size is bounded by the limit plus one write. Model: `Rolling`, `Disk`. Invariant.
* **C58** (partial) A roll never overwrites a backup. Model: `Rolling`, `Disk`. Witness; decimal numbers of any length.
* **C59** (proved) Foreign files are never touched. Model: `Rolling`, `Disk`. Every call of every operation names an own file; by induction over programs.
* **C60** (proved) Backup names encode and decode. Model: `Rolling`, `Disk`. List lemmas for both naming modes.
* **C61** (proved) Rolling is crash consistent. Model: `Rolling`, `Disk`. As C54, a write stopped between any two calls.
* **C62** (partial) A transient failure does not stop logging for good. Model: `Rolling`, `Disk`. Witnesses; invariants about the states a writer is left in.
* **C63** (proved) Restarting appends. Model: `Rolling`, `Disk`. From the post-condition of a write.
* **C64** (proved) Backups carry the backup permissions. Model: `Rolling`, `Disk`. Invariant over directory entries.
* **C65** (proved) Concurrent writers to one rolling output are serialised. Model: `RollThreads`. Transition system with the mutex; refinement to a sequential life by the order of `effect` steps.
* **C66** (proved) Time rolling rolls exactly at a change of period. Model: `Rolling`, `Disk`. Post-condition of a write with the readings of the clock.
* **C67** (partial) Time rolling keeps a gap-free suffix of the log. Model: `Rolling`, `Disk`. Witness; invariant under conditions on the names of periods.
* **C68** (partial) A backup holds the lines of its period. Model: `Rolling`, `Disk`. Witness; invariant with the period of the current file as ghost state.
* **C69** (partial) An idle output does not discard logs. Model: `Rolling`, `Disk`, `Async`. Witness; effect of empty writes.
* **C70** (partial) With archive configured, rolled-off backups are archived before removal. Model: `Rolling`, `Disk`. Witness for every configuration; invariant with the entries of the archive.
* **C71** (proved) Archive copy preserves entries. Model: `Archive`. Programs over readers and writers of entries; induction over entries and buffers.
* **C72** (proved) Adding to an archive file keeps the old entries and is atomic. Model: `Rolling`, `Disk`. Every prefix of the calls leaves the old or the new archive.
* **C73** (proved) End to end: what is logged is what is on disk. Model: `RollOutput`. Composition of C44, C47 and C54 over a joint transition system.
* **C74** (proved) No deadlock between SetConfig and GetLogger. Model: `Concurrent`. A completing schedule is constructed from every reachable state.
* **C75** (proved) Concurrent GetLogger calls agree. Model: `Concurrent`. Invariant.
* **C76** (proved) A logged line shows where it was logged from. Model: `Regex`, `Format`, `Logger`. Composition of C13, C15 and C36.
* **C77** (partial) Concurrent sends to a synchronous output lose nothing. Model: `Output`. Witness schedule for a buffer without lock; induction for a locked writer.
* **C78** (partial) A configured rolling output can write. Model: `Rolling`, `RollOutput`. Witness; post-condition when no call fails.
* **C79** (partial) A transient write error does not lose lines. Model: `RollOutput`. Witness; invariant.
* **C80** (partial) Reading an archive back finds what was put into it. Model: `Archive`. Witness; induction.
* **C81** (proved) Out of the box every message appears on the console. Model: `Standard`. The `init` of the library as a history; composition of C05 to C08, C13, C15, C36 and C42.
* **C82** (proved) A configured console prints one line per message that passes. Model: `Standard`. Same, for configured consoles; invariant over histories about the formatters of outputs.
* **C83** (partial) A message logged during a reconfiguration is handled before or after it. Model: `LogThreads`. A log call as single reads of fields, interleaved with atomic changes by others; witnesses; the log call seen through the last change.
* **C84** (proved) Logging waits for nobody. Model: `LogThreads`. A measure on the path to the root.
* **C85** (proved) At any moment an asynchronous output has written only what was logged, in order. Model: `System`. Invariant of the whole program that contains, per output, an execution of `Async`; composition with C44 and C45.
* **C86** (proved) A program that closes nothing loses nothing. Model: `System`. Same; for synchronous outputs an invariant of its own.
* **C87** (partial) Closing the manager waits until all events are written. Model: `System`. Witness; invariants about the lock and about what is left to close; composition with C47.
* **C88** (partial) Logging and closing do not panic. Model: `System`. Witness; the panic of an output is traced back to the call it happens in.
* **C89** (proved) Closing the manager comes to an end. Model: `System`. A completing schedule is constructed from every reachable state.
* **C90** (partial) After the manager is closed nothing is written. Model: `System`. Witness; a closed channel takes nothing.
* **C91** (partial) A configuration set after closing the manager takes effect. Model: `System`. Witness; names stay mapped.
* **C92** (proved) A log call that waits for a full queue goes on. Model: `System`. A completing schedule is constructed from every reachable state.
* **C93** (partial) Rolling outputs in one directory do not disturb each other. Model: `Shared`, on top of `Rolling`. Directories with file numbers and open handles; each writer, seen through the names that concern it, refines the writer that is alone (C54, C67); witness.
* **C94** (partial) Outputs that share one file. Model: `Shared`. Invariant: every piece written belongs to one file number, whose content is what it was plus its pieces; numbers keep a name unless removed or replaced. Invariant: until somebody rolls, an open file is the one the name stands for, and it grows at the end only; witness.
* **C95** (proved) What is logged is in the files, whatever overlaps. Model: `Machine` (`System` + `Shared`). Projection: a run of the machine is a run of the program and, in every directory, a run of the writers; what an output gave to its writer is what the writer was given. Composes C86, C87 and C93, and an invariant that whoever waits for a write has sent last, and that a Close that has waited leaves no write.
* **C96** (proved) Writing to files never stops the program. Model: `Machine`. Invariant: a writer has a file open whenever its next call needs one, so the operating system always has an answer; by induction on what is left of a write every write ends; steps of the program are then lifted one by one. The answers come from an arbitrary function of the history.
* **C97** (proved) Calls return. Model: `Machine`, `Spec/Fair`. Infinite runs as functions of time with moments at which nothing happens; strong fairness for each of: a goroutine in a call, the beginning of a worker, its taking from the queue, a writer. Writes end (measure on what is left of the write); hence workers are enabled again and again and the item at any place of the queue is taken at last; hence there is room again and again; a goroutine in a call decreases a measure with each step, and while it makes none its state does not change. `Close`: the request of the closer is taken at last, so the worker stops and the wait ends. The examples are finite runs that come to rest.
* **C98** (proved) What is logged is written without Close. Model: `Machine`, `Spec/Fair`. As C97: everything queued is taken at last (induction on its number); then the ticker makes the worker write what it has; the first moment at which this write has ended is the one we want, and the invariants of C85 and C95 say what is in the files at it. The example is an infinite run in which the worker ticks for ever (built by choice from a round that leaves the files as they are).
* **C99** (proved) Lines come in the order of the calls, across goroutines. Model: `System`. Invariant by induction from the moment at which a goroutine was in no call: what it has queued since then, holds in its hands or is about to send it has logged since then. Composed with the order of C85 and C86.
* **C100** (partial) The size limit holds over restarts. Model: `Rolling`, `Disk`. The invariant of C57 with a bound that grows by one message for each new writer; a write that is cut off leaves the disk like one of which every further call fails. Witness by induction on the bound.
* **C101** (partial) A signal does not stop logging. Model: `Signals`. Witnesses: the runs of C90 and C88 with the call of Close made by the goroutine of init. Before a signal that goroutine has begun nothing (invariant), so C86 applies; C86 holds for synchronous outputs whatever is closed.
* **C102** (proved) What was logged before SIGINT or SIGTERM is not lost. Model: `Signals`. Invariant on the goroutine of init (a signal is in the channel until received, Close is called once and after it). From every state its Close is driven to its end (C96) and then every worker to its stop, with the writers answered by any operating system; then the queue is written in full (the argument of C87), and the files follow as in C95. `C102_eventually` projects executions that go on for ever to those of C97 and adds fairness for receiving the signal and for calling Close.
* **C103** (proved) The options of an output mean what they say. Model: `Standard`, `RollOutput`, `Rolling`. Case distinction on the type; numbers by C28, thresholds by C01, the path by splitting at the last separator. The specification of each option (`Spec.NumberOption`, `FileIn`, `SendsAs`, `RollsAs`) is written without the functions that read it.
* **C104** (partial) A line shows the arguments as they were when the message was logged. Model: `Mutable`. `Async` with a memory, which the program may change at any step and on which the formatter depends. Invariant: what was written is the text of what was taken, each event with the memory of the moment it was taken; refuted by an execution of four steps with a change in between. Synchronous outputs: induction over the calls.
* **C105** (partial) A configuration takes effect when it is set, not when it is changed. Model: `Handed`. `World` with the configuration objects of the program and the one the manager points to. Simulation of the program that passes copies; for loggers there are, induction over changes and `GetLogger` (which configures a new logger only).
* **C106** (partial) An argument may log while it is formatted. Model: `Nested`. `Async` in which the worker, between taking an event and appending its text, makes the `Send` calls its formatting asks for. Invariants: conservation of what was queued; a worker before a full queue of its own stays there (no other step helps: nobody else takes from the queue, and `Close` waits for the worker). Refinement to `Async` if nothing is logged while formatting (the steps of others commute with handling an event). Synchronous outputs: induction over the tree of events.
* **C107** (partial) An output that cannot be made costs nothing else. Model: `World`, `Standard`. Invariant: while the configuration stays, an output whose creator refuses it never comes to exist, so `GetLoggerOutputs` answers an error to each logger that names it. The second half from C10 and C21 with the creators `init` registers (induction over the history).
* **C108** (partial) A logger has the outputs it was given. Model: `Slices` over `World`. Simulation of the program with copies, step by step, up to the outputs of loggers that have a slice of the program; invariant: such a logger has the content of its slice.
* **C109** (proved) An output is made by the creator registered last for its type. Model: `World`. Each call adds instances made by the creators registered before it (induction over the loop of `GetLoggerOutputs`); the map of creators is what was registered last (induction over the history).
* **C110** (partial) Code the library calls may use the library. Model: `Callbacks` over `World`. The code of the manager and the factory once more, with the two locks as part of the state, calls made by creators and by `Close`, and panics. Case analysis of calls made while a lock is held; from it, how each call can end (`run_ends`), by following the code; refinement to `World` if that code only logs.
* **C111** (partial) A creator that panics does no lasting harm. Model: `Callbacks`. Witnesses; for the root logger an invariant of all later histories (it is in no map, so nothing reaches it). Partial: a panic keeps the invariant of `World` and frees the locks if the root logger exists; then C21 and C10.
* **C112** (proved) Backups that cannot be removed do no harm. Model: `Rolling`, `Disk`. The invariant of C54 with the backups split into old ones, a sublist of what has been dropped, and recent ones; one witness for the gap.
* **C113** (proved) The newest part of the log is always there. Model: `Rolling`, `Disk`. The invariant of C112 tells for each file which pieces it is made of; the pieces of a rolled file are those up to the renaming, and with size rolling each rolled file has reached the limit (part of the plan of size rolling). Counting. From events: the batches of C44 cut the accepted events into groups, one write each; the group of an event is followed by at most the texts of the events after it. Whole programs: each writer lives as if it were alone in its directory (C93, C95), so the theorem about bytes holds for what it sees.
* **C114** (partial) An event is formatted with the formatter that was set when it was sent. Model: `Output`, `Async`. Synchronous: induction over the calls. Asynchronous: the steps of `Async`, each with the formatter the output has at that moment; invariants (queued = taken + in the queue; content = texts of what was taken; if formatters are set only while nothing is queued, what is in the queue has the present formatter). Witnesses for the two violations.
* **C115** (partial) Caller information is right also for formatters that are set later. Model: `World` with `SetFormatter`. Every API call is a row of five elementary changes of the state (`Elems`); references, flags and caller skips are followed through these, `SetCallerSkip` and `SetFormatter`. Witness for the violation, with the line that is printed.
* **C116** (proved) With one archive per backup, nothing is lost. Model: `Rolling`, `Disk`. Case analysis of the calls that make one archive; induction over the backups being dropped. Histories: as for C70, with the invariant that archived backups, backups there and new ones are in ascending order, so that no archive is made twice.
* **C117** (partial) A formatter or output that panics costs only its own line. Model: `Panicking`. Formatters are partial functions, `Send` answers whether it returned; the loop over the outputs stops at the first panic. Induction over calls and deliveries; whether an output panics does not depend on what it has written. The asynchronous output runs as one with a total formatter until the worker panics (then C44).
* **C118** (partial) Time rolling follows the calendar. Model: `Rolling` with `GoTime`, a model of `time.Format`, `time.ParseInLocation` and `time.Date` of Go 1.12 for the fields of date and time of day. The calendar arithmetic of package `time` is proved right for all days (cycles of 400, 100, 4 years; months); names determine the beginning of the period (round trip of formatting and parsing, induction over the pattern); beginnings are monotone. This is what `Periods` asks for, so C67, C68 and C112 apply. Witnesses with the clock change of 25 October 2020 and with a pattern without the year.
* **C119** (proved) With time rolling, a message is found by its time. Model: `Rolling`; `GoTime` for the calendar. Two invariants over all histories, kept at every stop and failure: the log file holds what was written since the last renaming, and a backup what the log file held when it was renamed (`life_ledger`); each renaming takes a period later than all names before, not before the times of what has been written, and before that of the present look at the clock (`life_dated`). The backups that are there are the last ones made (`life_names`).
* **C120** (partial) Nothing is lost as long as the operating system does what it can. Model: `Rolling` with the operating system of `Disk`, which cannot give a file an impossible name. A refused call must be one with no successful outcome from the disk it was made on. Case analysis of the calls of a write from a writer that has its file open or is new; induction over histories: directories stay, the number of entries stays finite. The violations: a writer without a name never opens a file; a roll that cannot succeed leaves all files but the current one as they are.
* **C121** (partial) Time rolling takes only files named after its periods for its own. Model: `Rolling` with `GoTime`. What parsing accepts is followed piece by piece (induction over the pattern): the fields that are read are those written, within the calendar. A writer renames only to the name of a time the clock showed (invariant over histories) and removes only names that can be read. Witness: a pattern with hours.
* **C122** (proved) A rolling output has one file open at a time, and none while it rolls. Model: `Rolling`, `Shared`, `Machine`. Which calls are in order is a function of the file that is open (`opened` in `Spec/Handles.lean`). The program of a write keeps to it for all answers (`ordered_write`, along its structure), with the file that is open given by the state of the writer; induction over sessions and interleavings.
* **C123** (partial) Closing the manager lets go of the log files. Model: `Machine`. Witness: the program with two outputs of C95, closed. The counts of C122, and that a write which succeeds leaves the writer with an open file, for the rest.
* **C124** (partial) The times in a log go forward. Model: `System`: the step `log` reads the clock. The order of C99 (`InTime`) taken at two moments: that at which the clock reaches the later time, and the one at which the call of the earlier event begins. That a goroutine is in no call, or its last call has not returned, is an invariant (`call_shape`). Witness: two goroutines and a memory output.
* **C125** (proved) What appears on the console is whole lines, in order. Model: `System`, `Stdout`: executions that also record what is written to the console, with the output that wrote it. The record projects onto what each output has written (`given_printed`), an invariant of the steps; every execution has one record (`pexec_texec`) and every record belongs to an execution (`texec_pexec`), so C99 and the completeness theorems of `System` apply. For the order across outputs the execution is split at the moment between the two calls (`TExec.split`): the record only grows.
* **C126** (proved) A log takes limited space. Model: `Rolling`, `Machine`. Number of files: an invariant of the life of the directory (`lifeOf_atMost`): a write that ends removes what is too much, except what it fails to remove (`write_atMost`); one that is cut off leaves at most one more (`moved_atMost`). Inside a write the log file is either there or has just become a backup (`stops_files`). Sizes: those of C100 and C17. Programs: the output seen by itself (C95).
* **C127** (partial) What goes wrong is reported on standard error. Model: `Machine`, `Stderr`: executions that also record what is written to standard error. An invariant of the executions (`eexec_inv`), with the step relation `Reports` giving the lines of each step; every execution of `Machine` has a record (`mexec_eexec`). The warning: induction on the path to the root (`warned_spec`), as for C08. Witnesses: a configuration with two rolling outputs; a message whose file cannot be made.
* **C128** (partial) What is sent to syslog arrives. Model: `System`, `Syslog`: executions that also record the connections of the syslog outputs and what the daemon gets; how each attempt to write or connect turns out is part of the trace. Two invariants of the executions: what has arrived is a sublist of what was called, shorter by at most the number of calls that failed (`yexec_inv`); connections and outputs correspond one to one (`yexec_conn`). With C99 for what was called. `Close`: every syslog output is in the map of the manager, none can be made while `Close` holds the lock, and each is closed in turn (`closing_conn`).
* **C129** (partial) Goroutines do not race. Model: `Races`: the functions of the API and the workers, access by access, run by any number of goroutines; happens-before is defined on executions, after the Go memory model (`Spec/Races.lean`). Each function is checked against rules saying which accesses a goroutine may make, given the locks it holds and what it has been handed (`wp_task`, a weakest precondition over ghost knowledge); an invariant of the executions says that what a goroutine knows happened before what it does (`Core`, `exec_inv`), so that accesses which conflict are ordered (`exec_safe`). For caller information a second such calculus (`wq`) follows values: the flag of a logger is that of its most demanding output unless some goroutine is just setting the outputs (`JL`), so a log call looks up what formatting will want before it sends the event, and an event that is in a queue is written by nobody (`JE`, `exec_known`). Outputs known to all do not change, so both are stated with the outputs as they are in the end. Witnesses of races: computed executions (`trace_exec`) and a set of steps that no synchronisation leaves (`shut_before`).
* **C130** (partial) A nil argument does no lasting harm. Model: `Nil`: SetConfig, SetOutputs, Send and WithCtx with nil, and what log calls, the worker of an asynchronous output and the text formatter then do. Configurations: induction over the calls. Outputs: the flags are raised up to the nil, then the call panics; a log call is followed to the first nil. Asynchronous outputs: a nil in the queue is to the worker what Close puts there, so the invariants of C05 hold with Send(nil) in place of a request of Close (`nil_ainv`, `nil_binv`); without Close nothing leaves the stopped state (`stuck_exec`). Contexts: the cases of `write`, and the parts of a layout as in C33.
* **C131** (proved) The error of a refused configuration says what is wrong with it. Model: `validateConfig` (in `Manager`) and the texts of its errors and those of `GetLoggerOutputs` (`ConfigErrors`); `FirstFault` says what is wrong with a configuration without reference to the loops. Each loop is followed over the definitions before the fault (`validateFormats_app` and the like) and, the other way round, its error is taken apart (`validateFormats_error` and the like). Texts: the characters before the first bracket differ from kind to kind; names are split off at the first closing bracket (`mark_split`).
* **C132** (proved) Setting a configuration again changes nothing. Model: `setConfig`, `notify`, `getLoggerOutputs` (in `World`, `Manager`). What is cached after a call was either there before or made by a creator that accepts it (`Later`), so a round of the loop ends in the same way when it is repeated later, with what it made in the cache (`one_again`, `loop_again`); a logger that is configured again gets what it has (`configure_again`); induction over both orders.
* **C133** (proved) What is done to one logger concerns only it and the loggers below it. Model: `printf`, `level` (in `Logger`) and all calls of `World`. Loggers of the path stay the same except for the caller skip, and the logger itself keeps that too (`act_kept`, `steps_kept`); the walk of `Level` and of `write` depends on these alone, whatever the size of the heap (`walk_kept`, `write_kept`, induction over the path).
* **C134** (proved) The order in which SetConfig goes through the loggers does not matter. Model: `setConfig`, `notify`, `getLoggerOutputs` (in `World`, `Manager`). Whether a round of the loop succeeds depends only on the manager before the first logger, not on what has been made since (`Since`, `one_since`, `loop_since`); so the same entries succeed in any order, and `Becomes` says what a logger becomes in terms of the final caches (`notify_since`). Two managers grown from the same one are compared name by name (`same_out`, `same_resolved`).
* **C135** (partial) It does not matter whether loggers are obtained before or after the configuration is set. Model: `getLogger`, `getParent`, `getRootLogger`, `createLogger`, `configure`, `setConfig`, `notify` (in `World`), `getLoggerOutputs` (in `Manager`). Refuted by the logger `a/b` and an entry for `a`. Otherwise: every logger that was made after a manager is as its entry says, if all in it can be made, or blank (`MadeOf`, `AllMade`), which obtaining loggers keeps (`get_made`, with `parent_made` for the loggers above); without a configuration nothing is cached (`obtained_unset`); the names and their references do not depend on the configuration (`obtained_shape`); loggers made after two managers with empty caches are compared (`made_alike`), and with levels and parents the walk of `Level` is the same (`same_enables`).
* **C136** (proved) Which loggers there are follows from the names that were asked for; before the configuration is set, the order does not matter. Model: `getLogger`, `getParent`, `getRootLogger`, `createLogger`, `setConfig`, `notify` (in `World`), `getLoggerOutputs` (in `Manager`). Names: what the loop of `getParent` makes is characterised by the prefixes of the name (`parent_names`), and a logger that is there has all loggers above it (`above_there`, induction over the length of the name); no other call changes the table (`act_names`); induction over the history. Order: the machinery of C135 (`early_made`, `made_alike`); levels are compared by name along the path (`same_level`).
* **C137** (partial) After the configuration is set, the order in which loggers are obtained does not matter. Model: `getLogger`, `getParent`, `getRootLogger`, `createLogger`, `setConfig` (in `World`), `getLoggerOutputs` (in `Manager`). Refuted by the loggers `a` and `a/b` and an entry for `a`. Otherwise from C135 and C136: either program is compared with the one that sets the configuration at the end.
* **C138** (partial) The order of the definitions in a configuration does not matter. Model: `getCfgLogger`, `getCfgOutput`, `getCfgFormat`, `validateConfig`, `getLoggerOutputs` (in `Manager`), all calls of `World`. Refuted by two entries for `x`. Otherwise: acceptance is `Consistent`, which permutations keep; looking a name up gives the same, by induction over the permutation (`find_perm`); every function commutes with replacing the configuration by one that answers the same (`outputs_agree`, `configure_reconf`, `get_reconf`, `notify_reconf`); induction over the history with the relation `Behind` (`act_behind`, `steps_behind`).
* **C139** (proved) Formats and outputs that no logger uses make no difference. Model: `getCfgOutput`, `getCfgFormat`, `validateConfig`, `getLoggerOutputs` (in `Manager`), all calls of `World`. An output that a logger names is defined in both configurations and, as names do not occur twice, it is what is found in both, and so is its format (`find_only`, `extends_agree`); then as C138, in both directions (`steps_behind`, `steps_ahead`).
* **C140** (proved) Entries for loggers that a program does not obtain make no difference. Model: `getCfgLogger`, `validateConfig`, `getLoggerOutputs` (in `Manager`), all calls of `World`. Looking up a logger gives the same, but for the names left out (`without_agree`); the lemmas of C138 need this only of the names of existing loggers (`notify_reconf`), of root, and of the names in the calls (`About`).
* **C141** (proved) The order of the calls that set loggers up does not matter. Model: `setLevel`, `setCallerSkip`, `setOutputs` (in `World`), `raiseFlag`. Any two of the calls commute (`setUp_comm`) and none changes what others need to be possible (`setUp_ok`); such a history is a fold (`steps_fold`), which permutations of commuting calls keep.
* **C142** (partial) Asking which outputs a logger has changes nothing. Model: `queryOutputs`, `getLogger`, `getParent`, `getRootLogger`, `createLogger`, `configure`, `setLevel`, `setCallerSkip`, `setOutputs`, `setConfig` (in `World`), `getLoggerOutputs` (in `Manager`). Refuted by an output that is defined anew. Otherwise both programs are run side by side with a relation (`Joint`): the managers have grown from the same one (`Since`, of C134), and the loggers at the same places are the same (`LikeLogger`); a question keeps it (`joint_query`) and so does any other call made in both (`joint_act`, with `same_resolved` of C134 for outputs that are made).
* **C143** (proved) Loggers can be set up before or after others are obtained. Model: `getLogger`, `getParent`, `getRootLogger`, `createLogger`, `configure`, `setLevel`, `setCallerSkip`, `setOutputs` (in `World`), `raiseFlag`. Obtaining a logger commutes with changing one that exists (`get_update`, `set_get`), so every obtaining call can be put off until all is set (`get_later`, `set_first`); both sequences then become the same one.
* **C144** (partial) The last call that sets something of a logger counts. Model: `setLevel`, `setCallerSkip`, `setOutputs` (in `World`), `raiseFlag`. Refuted by outputs that are taken away again. Without the flag, calls that set the same absorb each other and others commute (`effect_again`, `effect_comm`), so a call that is overridden can be left out (`absorb`, `fold_last`); the flag only grows (`needs_last`).
* **C145** (proved) Of the creators registered for a type only the last counts, in whatever order they are registered. Model: `registerFormatter`, `registerOutput` and all other calls (in `World`), `getFormat`, `getOutput`, `one`, `loop`, `getLoggerOutputs` (in `Manager`). A list of registrations leaves everything but the creators as it is, and these are the last ones (`registered`, by induction); states with the same creators for every type stay so under every call (`Twins`, `act_twins`, `steps_twins`).
* **C146** (proved) A creator can be registered at any time before it is needed. Model: `registerFormatter`, `registerOutput` and all other calls (in `World`), `getFormat`, `getOutput`, `one`, `loop`, `getLoggerOutputs` (in `Manager`). Both programs are run side by side with a relation (`Lates`) that says how their creators differ; calls under configurations that do not need these creators keep it (`act_lates`, `steps_lates`), and the late registration removes the difference (`lates_same`).

## Findings

Each is the witness of a `_refuted` theorem.

* C04: `Printf(Off, ..)` passes the gate of a logger that is off.
* C09: the levels of the ancestors whose outputs are used also gate a message.
* C10: a logger first made as the parent of another is never configured.
* C12: fields are lost when an ancestor delivers the message.
* C14: a direct `Printf` reports the caller of the caller.
* C16: a field named `__caller_info` makes a log call panic.
* C18: duplicate logger names are accepted (the map of seen names is never filled).
* C19: `LoadConfig` drops the error of the decoder and of an unknown extension and installs an empty configuration.
* C20: `LoadConfigFile` panics for a readable file without extension.
* C24: redefining an output under the same name has no effect.
* C30, C31, C78: the number in front of a size unit is ignored; an overlong number with a unit gives a negative size, with which no write succeeds.
* C38: `Debugf` without arguments does not treat `%%`.
* C47: `Close` of an asynchronous output does not wait for a worker that has not begun (`wait.Add` is called in the worker).
* C50, C51: `Send` and `Close` panic when another `Close` returns meanwhile.
* C53: an asynchronous output without formatter crashes the program.
* C58: after the largest 64-bit number the number of the next backup wraps around.
* C62, C79: after a failed roll a writer may never write again; lines of failed writes are lost.
* C67, C68: time rolling overwrites backups when period names repeat, and puts lines of one period into the backup of another after a restart.
* C69: ticks of an idle asynchronous output roll the file and drop backups.
* C70: the configured archive is never written: its path is the directory of the log. A directory `.log4g_tmp` appears in the log directory when the first backup is removed. The path is printed with `println` for every rolling output (internal/output_rollingwriter.go:211).
* C103: the README shows `rf.1.log` as the name of a backup in prefix mode; it is `1.rf.log` (internal/output_rollingwriter.go:237). The option `prefix` of syslog outputs is the tag given to `syslog.New`.
* C104: asynchronous outputs format in the worker, so an argument that refers to memory shows what it holds later (and is read without synchronisation with the program).
* C105: the manager keeps the pointer given to `SetConfig`; loggers asked for later see what the program has made of the object since, even if `SetConfig` refuses it.
* C106: the worker of an asynchronous output that formats an argument whose `String` method logs to the same output waits for ever once the queue is full, and with it everybody who logs to this output.
* C107: a logger one of whose outputs cannot be made (syslog without daemon) gets neither its level nor its other outputs, and nothing reports it.
* C108: `SetOutputs` keeps the slice of the caller; a later assignment to an element changes the outputs of the logger but not whether it looks for the caller.
* C110: creators are called under the locks of the manager and the factory: one that calls `GetLogger` (say, to log why it fails) stops the program's use of the library for ever.
* C111: a creator that panics while the root logger is made leaves a root logger nobody can configure (internal/logger_factory.go:76 sets the field, :86 the map, the creators are called in between); a panic in `Close` of an output leaves the manager locked (internal/logger_manager.go:189-195 has no `defer`).
* C114: `SetFormatter` on an asynchronous output also changes how events are written that were sent before; `SetFormatter(nil)` makes the worker panic over them.
* C115: a formatter that is set on an output which a logger already has gets no caller information; its own search for the caller then finds a frame of the library (internal/logger.go:99-106 asks the outputs once).
* C117: an output or formatter that panics keeps the event from the outputs after it; in the worker of an asynchronous output it ends the program.
* C118: at the end of summer time, time rolling with a pattern down to the minute overwrites backups; with a pattern that does not show the year, the wrong backups are removed after New Year.
* C120: a rolling output without the option `file` is accepted and writes nothing; with slashes in the time pattern no roll ever succeeds and the first message of every new period is lost; a directory with the name of the next backup stops size rolling for good.
* C121: with hours in the time pattern a file named with a one-digit hour (`log.2020-02-28-3`), which the library never makes, is taken for a backup and removed; likewise seconds followed by a fraction.
* C123: the outputs never close the files of their writers (`baseOutput.Close` does nothing, `asyncOutput.Close` stops the worker, after a last write that opens the file if it was not open); so after `Close` of the manager, and when a configuration that drops an output is loaded, the log files stay open. The rolling writer has a `Close`, which nothing calls.
* C124: a log call reads the clock before it takes the output's lock (or queues the event), so lines of different goroutines can be in another order than their times. The rolling writer does not care: it looks at the clock itself.
* C127: the error of a failing write is dropped by `Send` and by the worker, so lost messages are not reported. `newRollingFileWriter` prints the directory of each rolling output to standard error (a leftover `println`).
* C128: `Send` of a syslog output ignores the errors of the writer: a message logged while the daemon is away is lost. `syslog.Writer` connects again when it is used after `Close`, so a message logged after `Close` of the manager leaves a connection open. `syslog.New` is given `LOG_CRIT` without a facility, which makes it `LOG_KERN`: all messages say they come from the kernel.
* C129: data races: `SetConfig` (through `notify`), `SetLevel`, `SetOutputs` and `SetCallerSkip` write the fields of a logger that log calls read without a lock; `SetFormatter` and log calls; two log calls to one memory output (`bytes.Buffer` without a lock); `wait.Add(1)` at the start of a worker and `wait.Wait()` in `Close`; the context of an event, when the flag of a logger is neither 1 nor 2 although a layout wants the caller (an output or formatter of the program answers 3; with answers up to 2 there is no such race). All other variables are protected: the maps by the two locks, a new logger or output by not being handed out before it is complete, an event by the channel.
* C130: `SetOutputs` with a nil output stores the list before it panics, so every later log call panics; `Send(nil)` is what `Close` sends to the worker of an asynchronous output, so it stops the worker, and later events are never written; a log call of `WithCtx(nil)` panics if caller information is wanted, and otherwise its event makes the formatter panic if the layout prints a field, in the worker of an asynchronous output with the end of the program. `SetConfig(nil)` panics and changes nothing.
* C135: whether a logger is obtained before or after the configuration is set matters for loggers that come into being as parents: `GetLogger("a/b")` makes `a` without looking for its entry (C10), so after a configuration with an entry for `a`, a new `a/b` inherits nothing from it, while an `a/b` that was there before does.
* C137: for the same reason, with a configuration that has an entry for `a`, whether `a` ever gets what its entry says depends on whether it or a logger below it is obtained first.
* C138: because duplicate entries for a logger are accepted (C18), the order of the entries of a configuration can change the level of a logger.
* C142: GetLoggerOutputs makes the outputs it is asked for and keeps them, so asking before a configuration is replaced makes the old definition stay.
* C144: `SetOutputs` never lowers the need for caller information (internal/logger.go:99-106): a logger whose outputs are replaced by ones that do not show the caller still captures it with every message.
* C77: concurrent sends to a memory output lose lines.
* C80: a compressed tar archive without files is read back as a file of 1024 zeros.
* C87: `Close` of the manager ("wait all event write to outputs") does not wait for workers that have not begun.
* C88: a log call panics if the manager is closed meanwhile; `init` starts a goroutine that closes it when a signal arrives.
* C101: so a signal makes log calls panic or drop what they are given, in a program that closes nothing.
* C90, C91: synchronous outputs go on writing after `Close`; asynchronous ones drop everything, for ever, because the manager keeps the closed output under its name.
* C93: an output with file `log` takes the file of an output with file `log.5` for one of its backups, numbers its own after it and removes it.
* C100: the first write of a new writer never rolls (a size of 0 or an empty period name is compared before the file is opened), so a program that starts anew for each message lets its file grow for ever, by size and by time rolling.
* C94: of two outputs with the same file, one writes to a file the other has renamed or removed; nothing checks for this.
* C83: a log call during a reconfiguration may combine an old level with new outputs.

Not a property of the model, but seen while reading: `init` calls `signal.Notify` for SIGINT and SIGTERM and its goroutine does not end the program (internal/log4g.go:39-44), so a program that uses the library no longer ends when it gets one of these signals, unless it handles them itself.

## Library assumptions

What the model takes from Go and the operating system, apart from the language itself:

* `fmt.Sprintf`, `fmt.Sprint`, `time.Time.Format`, `os.Getpid`, `os.Args[0]`: parameters (structure `Lib`); theorems hold for every choice. `time.ParseInLocation` and `sort.Sort`: parameters of `RLib`, `sort` with the two facts that it permutes and sorts. For C118 `GoTime` models `Format` and `ParseInLocation` (as of Go 1.12, the version in go.mod) for layouts made of 2006, 01, 02, 15, 04, 05 and other text without further layout elements; other layouts stay a parameter. Time zones are any function from instants to an offset and its validity. Instants are integers (nanoseconds), without the bounds of `int64`.
* `regexp`: leftmost-first backtracking semantics (`Model/Regex.lean`) for the constructs the one pattern of the code uses.
* `strconv.Atoi`, `strconv.ParseInt`, `strings.*`, `path.Base`, `path.Ext`, `filepath.Split`: defined in the model.
* `unicode.ToUpper`: only what can become an ASCII letter matters; the two non-ASCII characters for which it does are included.
* `runtime.Callers`: frames are a list; compiler generated wrapper frames are not in it.
* `yaml.Unmarshal`, `json.Unmarshal`: any functions.
* Channels, wait groups, mutexes and atomics: sequentially consistent; each operation is one step. Data races (fields of a logger, `bytes.Buffer`) are modelled as interleavings of single reads and writes. C129 does without this assumption: it says between which accesses there are data races, so that an execution without them is one of the interleavings the other models look at.
* The file system: a directory of regular files and directories, without links, which nobody else changes (but see C93, C94: several writers in one directory); in `Rolling` an open file is identified by its name, in `Shared` by its number, and C93 shows that the former is right for a writer with names of its own; every call may fail, a failing `write` may write a part. A file cannot be created or renamed to a name that is empty, `.`, `..`, or has a slash or a zero character; there are no directories below the log directory into which a name with a slash could lead.
* Archive formats: lists of entries (name, content); their bytes are not modelled.
* `signal.Notify`: a signal goes to the channel if there is room; it does not end the program. What else a program does about signals is not modelled.
* `log/syslog`: `New`, `Close` and the methods for messages as in Go's library (`Model/Syslog.lean`), each under the lock of the writer; a write that fails has sent nothing; the time and process number in a message are left out. In the other models only the calls of these methods are looked at.
* `bytes.Buffer.Write` without a lock: read of the length, then copy.

## Not modelled

* `example/main.go`, the test helpers in `internal/io`, `String()` of the writers.
* The text of error values, except those about configurations (C131).
* `SetConfig(nil)`, `SetOutputs` with nil among the outputs, `Send(nil)` and `WithCtx(nil)`: only in `Nil` (C130), other nil arguments (a nil `context` inside an event the program makes itself, nil creators) not at all. A caller that changes a `Config` after passing it on: only in `Handed` (C105), where no two objects share a map or slice; one that changes a slice given to `SetOutputs`: only in `Slices` (C108); arguments that refer to memory the program changes: only in `Mutable` (C104); `SetFormatter` called by the program: only in `Formatters` (C114, C115).
* Formatters and outputs written by the user may answer anything but are taken not to panic, except in `Panicking` (C117); the creators may fail and be called in any order; creators that panic or call the library, and outputs whose `Close` does: only in `Callbacks` (C110, C111), one goroutine at a time.
* More than one factory or manager (the library has one of each).
* `Shared` and `Machine`: archives of configured outputs only, whose path is the log directory (C70), so that the archive is never read and all that is left is the directory `.log4g_tmp`; what is in that directory is not modelled. In `Machine`, only the program itself changes the directories, and what a write returns is ignored, as the outputs do.
* The `fullName` variant of the rolling writer, which nothing sets.

## Trusted base

* Lean 4.33.0's kernel. No axioms are added; no `sorry`, `native_decide` or `bv_decide`. Axioms used, by theorem:

<!-- axioms -->
* `propext` (38 theorems): C04_off_refuted, C05_parent_unique, C07_path_unique, C14_printf_site_refuted, C16_no_panic_refuted, C18_duplicate_loggers_refuted, C19_load_errors_refuted, C19_decoder_errors_refuted, C19_load_partial, C20_load_file_refuted, C31_size_positive_refuted, C38_message_refuted, C45_fifo_queue, C47_flushed_refuted, C47_two_closes_refuted, C47_not_begun, C50_send_panics_refuted, C53_no_formatter_refuted, C80_reread_refuted, C87_close_flushes_refuted, C88_panics_refuted, C90_after_close_refuted, C91_reconfigured_refuted, C104_as_logged_refuted, C105_refused_refuted, C106_quiet_partial, C110_creators_refuted, C110_outputs_refuted, C114_async_refuted, C114_nil_refuted, C117_others_refuted, C117_async_refuted, C130_ctx_refuted, C130_config_partial, C130_sync_partial, C131_shows, C138_shuffled_refuted, C142_query_refuted
* `Quot.sound`, `propext` (89 theorems): C01_levelFrom, C02_names_roundtrip, C09_own_level_refuted, C10_configured_refuted, C12_fields_refuted, C18_duplicate_loggers_partial, C20_load_file_partial, C24_redefine_refuted, C30_size_units_refuted, C32_threshold, C42_sync, C43_syslog, C44_queue, C45_fifo, C46_batch, C48_send_after_close, C49_close_again, C50_close_panics_refuted, C50_panics_partial, C51_close_refuted, C52_same_bytes, C55_written_whole, C58_new_name_refuted, C59_foreign_files_untouched, C62_time_transient_partial, C62_time_next_partial, C64_permissions, C65_serialised, C65_quiescent, C65_no_deadlock, C66_rolls_at_period_change, C66_empty_pattern, C68_backup_period_refuted, C69_idle_refuted, C69_idle_time_partial, C71_copy, C71_copy_any, C71_gzip, C77_concurrent_refuted, C77_concurrent_partial, C80_reread_partial, C93_neighbours_refuted, C94_same_file_refuted, C100_restarts_refuted, C100_never_rolls, C102_once, C104_unchanged_partial, C104_moment_partial, C104_sync_partial, C106_lines_refuted, C106_stuck, C106_order_partial, C106_room_partial, C106_sync_partial, C107_others_refuted, C108_given_refuted, C110_logging_partial, C111_logger_refuted, C114_sync, C114_syslog, C114_async_partial, C114_idle_partial, C115_late_formatter_refuted, C117_async_partial, C118_no_year_refuted, C120_calendar, C120_no_file_refuted, C120_slash_refuted, C121_any_library, C121_hours_refuted, C122_writer, C122_closes, C122_close, C122_shared, C122_program, C123_held_partial, C127_quiet_refuted, Races.C129_no_races_refuted, Races.C129_set_config_refuted, Races.C129_set_level_refuted, Races.C129_set_formatter_refuted, Races.C129_memory_refuted, Races.C129_close_refuted, Races.C129_caller_refuted, C130_event_refuted, C131_told_apart, C137_order_refuted, C144_last_refuted, C146_late
* `Classical.choice`, `Quot.sound`, `propext` (239 theorems): C03_threshold, C04_off_partial, C05_hierarchy, C06_one_logger_per_name, C07_level_inheritance, C07_unset, C08_output_inheritance, C09_own_level_partial, C09_gates_partial, C10_configured_partial, C11_attribution, C12_fields_partial, C12_inherited_partial, C13_call_site, C14_printf_site_partial, C15_caller_info, C16_no_panic_partial, C17_set_config, C21_reconfigure, C22_untouched, C23_one_instance, C24_redefine_partial, C25_last_config, C26_root_fallback, C27_logger_outputs, C28_ranges, C29_file_mode, C29_rolling, C30_size_units_partial, C31_size_positive_partial, C33_lossless, C34_roundtrip, C35_rejected, C36_line, C37_verbatim, C38_message_partial, C39_fields, C39_all_builtins, C39_builtins, C40_flag, C41_split, C47_flushed_partial, C51_close_partial, C53_no_formatter_partial, C54_size_rolling_gap_free, C54_messages, C55_message_in_one_file, C55_time, C56_at_most_max_backups, C57_file_sizes, C58_new_name_partial, C60_backup_names, C61_crash_consistent, C62_size_transient_refuted, C62_time_transient_refuted, C62_time_open_refuted, C62_size_transient_partial, C63_restart_appends, C65_gap_free, C67_time_rolling_gap_free_refuted, C67_time_rolling_gap_free_partial, C67_messages_partial, C68_backup_period_partial, C69_idle_size_partial, C70_archived_refuted, C70_archived_partial, C70_nothing_lost_partial, C70_nothing_lost_time_partial, C72_archive_atomic, C72_archive_grows, C73_closed, C73_any_moment, C73_crash, C73_sync, C73_configured, C74_no_deadlock, C75_concurrent_get, C76_logged_line, C78_writes_succeed_refuted, C78_writes_succeed_partial, C79_lines_lost_refuted, C79_lines_lost_partial, C81_default, C82_console, C83_reconfigure_refuted, C83_reconfigure_partial, C84_log_ends, C85_any_moment, C86_nothing_lost, C86_sync, C86_syslog, C87_close_flushes_partial, C88_panics_partial, C89_close_returns, C90_after_close_partial, C91_reconfigured_partial, C92_log_returns, C93_as_if_alone_partial, C93_neighbours_partial, C93_neighbours_time_partial, C93_others_untouched, C94_same_file_partial, C94_one_home_partial, C95_on_disk, C95_sync, C95_closed, C95_faults, C96_any_run, C96_log_returns, C96_close_returns, C97_log_returns, C97_send_returns, C97_close_returns, C97_lock_free, C98_written, C98_on_disk, C99_async, C99_sync, C99_syslog, C100_restarts_partial, C101_after_signal_refuted, C101_panics_refuted, C101_before_signal_partial, C101_sync_partial, C101_panics_partial, C102_flushes, C102_eventually, C102_closed, C103_options, C105_copies_partial, C105_existing_partial, C107_unset_partial, C107_kept_partial, C107_sound_partial, C108_copies_partial, C108_rest_partial, C108_present_partial, C109_outputs, C109_formatters, C109_unregistered, C110_for_good, C110_uses_partial, C110_needed_partial, C111_root_refuted, C111_close_refuted, C111_recovers_partial, C112_size, C112_time, C112_gap, C113_rolls, C113_bytes, C113_time, C113_exact, C113_async, C113_closed, C113_sync, C113_program, C113_program_async, C113_program_sync, C113_program_closed, C115_formatters_partial, C116_each_atomic, C116_nothing_lost, C116_nothing_lost_time, C117_sync_partial, C118_names_partial, C118_start_partial, C118_gap_free_partial, C118_fixed_zone, C118_one_period_partial, C118_summer_time_refuted, C119_found_by_time, C119_where, C119_calendar, C119_calendar_where, C120_writes_partial, C120_directory_refuted, C121_dates_partial, C121_days_partial, C121_taken, C123_close_refuted, C124_forward_refuted, C124_sync_partial, C124_async_partial, C124_syslog_partial, C125_whole, C125_sync, C125_async, C125_order, C126_files, C126_space, C126_alive, C126_program_files, C126_program, C126_program_async, C126_program_sync, C127_lost_refuted, C127_reports_partial, C127_call_partial, C127_warned_partial, C128_lost_refuted, C128_close_refuted, C128_arrives_partial, C128_reached, C128_connections, C128_close_partial, Races.C129_races_partial, Races.C129_known_flags_partial, Races.C129_none_partial, C130_outputs_refuted, C130_outputs_partial, C130_event_partial, C130_ctx_partial, C130_ctx_line_partial, C131_first_fault, C131_load, C132_again, C132_load, C133_logging, C133_level, C134_any_order, C134_load, C134_sharing, C135_before_or_after_refuted, C135_before_or_after_partial, C135_sharing, C136_which, C136_any_order, C136_sharing, C137_order_partial, C138_shuffled_partial, C139_unused, C140_never_obtained, C141_any_order, C142_query_partial, C143_interleaved, C144_last_partial, C145_registrations, C145_any_order
<!-- end axioms -->

* The reading of the Go code: the model is tied to the code by the citations in its comments only.
* The assumptions of the two sections above.
