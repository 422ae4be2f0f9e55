# Formal model of atlesn/rrr in Lean 4

A machine-checked model of the protocol, container and decision-logic cores of
RRR, with proofs of the properties listed in `properties.jsonl`.

## Layout

* `lean/Verif/<Area>/Model.lean`: executable model, one definition per C
  function, each with a comment citing file and lines in `/repo` and naming
  what is simplified.
* `lean/Verif/<Area>/Spec.lean`: the specification, where one is needed: what
  the English property means, written without the helpers of the model.
* `lean/Verif/<Area>/*Lemmas.lean` and others: helper lemmas.
* `lean/Verif/<Area>/Props.lean` (and files named in `MANIFEST.json`): the
  property theorems, each with an `example` which shows that a concrete case
  meets its hypotheses.
* `MANIFEST.json`: property to theorem map, generated by `tools/manifest.py`
  from `tools/manifest_data.py`.
* `AXIOMS.txt`: the axioms each of these theorems depends on, generated by
  `tools/axioms.py` from `#print axioms`.
* `seeded/LOG.jsonl`: seeded bugs; written by `tools/mutate.py`, which edits a
  copy of the model outside of this directory, rebuilds it and records which
  theorems fail.

## Trusted base

* Lean 4.33.0's kernel; axioms `propext`, `Classical.choice`, `Quot.sound`
  only (per theorem: `AXIOMS.txt`). No own axioms, no `sorry`, no
  `native_decide`, no `bv_decide`, no `implemented_by`.
* Mathlib: only tactics and facts on rational numbers, in `Verif/Fixp`; all of
  it is checked by the kernel. All other areas use Lean's core library only.
* The reading of the C code: nothing was compiled or executed. Every definition
  cites what it models.
* C semantics assumed: 64-bit little-endian Linux, `char` signed,
  `rrr_length` 32 bits and `rrr_biglength` 64 bits wide, wrapping unsigned
  arithmetic. Memory allocation succeeds unless a model says otherwise.
  Sections under one mutex are atomic. The clock does not change during one
  call.
* `RRR_BUG`, `assert` and undefined behaviour (out of bounds access, use after
  free, signed overflow, shift too wide) are outcomes of their own in the
  models, not something the models leave out.

## What is modelled, and what is not

| Area | Code | Not modelled |
|---|---|---|
| Topic | `mqtt_topic.c`: tokenise, validate, match (tokens and linear) | |
| Acl | `mqtt_acl.c`: entries, users, decision, containment | the parser of the ACL file |
| IdPool | `mqtt_id_pool.c` | the debug output |
| Subscription | `mqtt_subscription.c`: list, append, remove, match | |
| Utf8 | `utf8.c` | |
| Increment | `increment.c`, the id logic of `p_incrementer.c` | its message database access |
| Base64 | `base64.c` | line feeds option |
| Hdlc | `hdlc/*.c` import and export | |
| Crc32 | `rrr_crc32.c` with its table | |
| Msg, Read | `messages/msg*.c`, `read.c`, `socket/rrr_socket_read.c` framing | file descriptors, time-outs, rate limits |
| Types | `type.c`, `array.c`: integers, strings, blobs, messages, packing, unpacking, tag lookup | fixed point, HDLC and separator imports, array trees |
| Fifo | `fifo.c` at the level of pointers | wait/clear across threads (callers hold the lock) |
| Pfifo | `fifo_protected.c`: writers and readers, one critical section at a time, at the level of pointers | rate limiting, thread cancellation, allocation failure, ordered writes |
| Hub | `message_broker.c`: duplicated output, the fill of the readers' buffers and polling, composed from the queues of Pfifo | slot output, notifications (Wake), cloning of entries (a clone is the same message), allocation failure |
| Wake | `event/event.c`: the handler of notifications, pausing, deferring; `message_broker.c`: sending of notifications | libevent (an event is called when added and readable, or made active), errors of descriptors, the event loop's end |
| Route | `message_broker.c`: backstop, next hops; `poll_helper.c`: topic filter | whether a topic matches (Topic) |
| Asd | `udpstream/udpstream_asd.c`: both queues, control frames, periodic tasks | the UDP stream below (assumed to keep the order and not to repeat, may lose), timers (an entry may be due at any time), connecting, window sizes |
| Cacher | `modules/p_cacher.c`: the decision on each message, the memory cache and its tidying | the answers of the database, reviving, failures when writing to other instances |
| Msgdb | `lib/msgdb/msgdb_server.c`: PUT, GET, DEL, the files and their names, the check of a file read, restructuring, the index of directories and the walk in slices | the hash function (a parameter), the sockets, the directory functions of the system (files as a map from path to contents) |
| Sha256 | `lib/util/sha256.c`, all functions | nothing |
| Udpstream | `lib/udpstream/udpstream.c`: queueing, send loop, acknowledgements, receive buffer, delivery, window regulation, connect and reset, finding streams, packet format | sockets, timers (any event may happen at any time), statistics, allocation failures; the times at which streams were last seen |
| SendLoop | `lib/send_loop.c`, `rrr_msg_holder_util_timeout_check`, `rrr_msg_holder_collection_sort` | the senders (any answer at any time), locks and reference counts, wrap-around of the 64 bit index |
| ArrayTree | reading data with a definition: `array_tree.c` L1142-1551, the import functions of `type.c`, `__rrr_fixp_str_preliminary_parse` | conversion of fixed point numbers (parameter), the bytes of messages in memory when they are used as a number (parameter) |
| ArrayDef | the text of array definitions: `array_tree.c` L227-1023, `rrr_type_parse_from_string` | allocation failure, log messages, line numbers; conditions are read with the model of the Condition area |
| Chunk | sending in chunks: `rrr_socket_send_chunk.c`, `rrr_socket_sendto_nonblock_with_options`, the write events of socket clients and net transport | datagrams, TLS, allocation failure, timeouts |
| AclFile | `mqtt_acl.c:143-505`: reading of ACL files | reading the bytes from disk, allocation failure |
| Config | `configuration.c`, reading of instances in `instance_config.c:956-1149`, adding of settings in `settings.c`, names in `parse.c:483-632` | reading the bytes from disk, allocation failure, links between main and sub instances |
| Sha1 | `sha1.c`, the accept string, the check of it and the key in `http_application_http1.c:317-416`, `:630-696` and `websocket.c:70-103` | random numbers, the other header fields, callbacks of the application, `length` of one piece is not limited to 32 bits |
| Convert | `type_conversion.c`, `hex.c:30-63`, `__rrr_type_h_to_str` in `type.c:1212-1240`, `p_mangler.c:77-232` | parsing of the recipe from the configuration; messages in memory are a function of the host; which error is returned when a message is dropped |
| Influx | `http_query_builder.c`, `p_influxdb.c:169-450` up to the sending | HTTP; the text of fixed point numbers is a parameter; allocation failure |
| Exploder | `p_exploder.c:64-243` | addresses and nexthops of messages; allocation failure; failure to write |
| Averager | `p_averager.c:76-432` | messages in the output list are written at once; allocation failure; failure to write |
| MmapColl | `rrr_mmap.c:495-1070`: collections of maps, the tables of addresses of each process, maintenance | the shared memory layer (`rrr_shm.c`), statistics, debug output; `rrr_mmap_collection_resolve` |
| Settings | `settings.c`, the parsing functions of `instance_config.c` and `instance_config.h`, `rrr_map_parse_pair` of `map.c` | floating point settings, network format of packed settings (never sent over networks), friend collections and lists of instance names, allocation failure |
| Shm | `rrr_shm.c`: masters, slaves, holders; the operating system's names, objects and mappings | more than one master, races (users must lock), the text of names, heap allocation failure |
| Cmdline | `cmdlineparser/cmdline.c`: `cmd_parse`, lookups, iteration, check of unused arguments | number conversion, usage text, copies of `argv`, heap allocation failure |
| Startup | `main.c`: `rrr_main_parse_cmd_arguments_and_env`; `environment_file.c`; `cmd_convert_integer_10` | journald, banner, what is in the environment after an error, heap allocation failure; `getenv`, `setenv`, `strtol`, `strtoul` as the C standard has them |
| Passwd | `passwd.c` without reading from terminals; `rrr_passwd.c`: processing of files, checks of options, renaming of files; `rrr_parse_str_split`, `rrr_parse_str_strip_newlines` | PBKDF2 and random numbers of OpenSSL are parameters; short writes and failure of `write`, heap allocation failure; NUL in files |
| Json | `json.c`: from JSON to arrays, from arrays and maps to JSON; `array.c`: `rrr_array_selected_tags_split` and the functions which push values | parser and printer of json-c (trees are given); floating point numbers; JSON of log messages; values of type msg |
| Fixp | `fixed_point.c` | rounding of `long double` is a parameter (`Spec.Rounding`); numbers below 2^-1000 |
| Multipart | `http_part_multipart.c` all; `http_part.c:42-78, 600-708`; `nullsafe_str.c:475-554` | headers by the model of HTTP/1; positions are unbounded numbers apart from the stored length of data |
| Threads | `threads.c`: states and signals of a thread, its watchdog, start procedure for any number of threads, stop, join and destruction, as interleaved atomic steps | failure of `pthread_create`, single thread mode, what is done about ghosts, times |
| Stats | `stats_message.c`: making, packing and unpacking of messages; `stats_tree.c`: insertion, cleanup, search for leaves | sockets and the engine (`stats_engine.c`), the dump of a tree, allocation failures |
| Uri | `http_util.c:797-1400`: validation of characters, protocol, host and port, endpoint, default port, hosts of services | prepending and cleaning of endpoints, splitting off queries |
| AltSvc | `rrr_socket_graylist.c`, `net_transport.c:1918-1992`, `http_service.c`, `http_client.c:449-457, 1064-1340`, `http_transaction.c:292-357` | several connections to one server, expiration of services (`ma`), connections by themselves |
| Form | `http_fields.c:413-511`, `http_part.c:374-573`: url-encoded forms and queries | values from arrays, allocation failure |
| LogHook | `log.c:139-303`: calls, registration and removal of log hooks by any threads | text of messages, printing, hooks which register hooks, forks |
| Env | `environment_file.c:34-122`, `main.c:143-153`: environment files | reading of the file, line numbers, meaning of the variables |
| Fork | `fork.c:73-478`: forks, SIGCHLD and exit notifications | sending of signals, death of a process which holds the lock, reuse of process numbers, the abort with too many children |
| Mysql | `p_mysql.c:203-840`: statement, binding, buffer | the client library of the database, parsing of the settings, memory of the bindings, tag messages of the test module |
| Redirect | `http_client.c` redirects and destinations, `http_redirect.c`, `http_transaction.c:418-443`, `http_util.c:909-953, 1055-1083, 1436-1485`, `p_httpclient.c:1758-1836` | connections, alternative services (AltSvc), invalid tags in messages |
| Journal | `src_journal.c:179-355, 412-449`: hook, queue, writing of messages | pauses of threads, encoding of arrays (Types), statistics, failure of the message broker |
| Nullsafe | `nullsafe_str.c:384-432, 475-554, 576-584, 631-704, 763-780, 995-1039`: splitting, searching, comparing, printing, trimming | allocation, appending and moving of strings; `tolower` in other locales; floating point quotients are compared as fractions |
| HttpQueue | `p_httpclient.c:2045-2073, 2230-2369, 2451-2455, 2519-2578`, `message_holder_collection.c:82-100`, `linked_list.h:359-372`: queues of the HTTP client module | contents of requests, locks, pausing of senders, growth of queues while they are processed |
| MqttClient | `p_mqttclient.c:194-223, 265-890, 2069-2128`: packets and commands from messages, the queue | connection, sessions, encoding of payloads, receiving; match of command topics and validity of filters are parameters |
| MqttReceive | `p_mqttclient.c:1333-1751`: received PUBLISH to messages | parsing of the packet; the array parser is a parameter; little endian host; writes to the output succeed |
| StrBuild | `helpers/string_builder.c`: buffer, appending, reserving, chopping | failing allocation, formatting |
| MqttAck | `p_mqttclient.c:1182-1290`, `mqtt_subscription.c` remove_topic | matching of answers to requests in the session; known reasons are a parameter |
| Mmap | `rrr_mmap.c`: one map | the collection of maps |
| Channel | `mmap_channel.c`: both processes, one critical section at a time | locks of dead processes, `shmat` failures |
| Condition | `condition.c`: tokeniser, shunting yard, evaluator | |
| Parse, Discern | `parse.c` primitives, `discern_stack.c`: parser and run time | |
| Slot | `message_holder_slot.c` | condition variables' time-outs (any wake-up is allowed) |
| HttpUtil | `http_util.c`: encode, decode, quote, unquote, searches, numbers | |
| Http | `http_part_parse.c`, `http_header_fields.c` (parsing), target size and receive callback of `http_application_http1.c`, chunks in `http_part.c`, body in `http_client.c`: reception of HTTP/1 requests and responses | the address of the receive buffer stays the same while data arrives; multipart and JSON bodies, upgrades, sending, HTTP/2 |
| Websocket | `websocket.c` | TLS, HTTP upgrade |
| Modbus | `rrr_modbus.c` | |
| Mqtt | `mqtt_parse.c`, `mqtt_assemble.c`, `mqtt_payload.c`, `mqtt_property.c`, packet stream of `mqtt_connection.c` | |
| Session | `mqtt_session_ram.c`: queues of one session, handlers of PUBLISH and acknowledgements in `mqtt_common.c` | statistics, reference counts |
| Broker | `mqtt_broker.c`: CONNECT, take-over, authentication, SUBSCRIBE, UNSUBSCRIBE, PUBLISH, DISCONNECT, lost connections; `mqtt_session_ram.c`: collection of sessions, forwarding, retained messages, wills, expiry | thread pool, TLS, statistics; keep-alive time-outs are events chosen freely; the ACL and the password file are arbitrary functions |
| Checked | `rrr_types.h` checked arithmetic | |

Threads beyond these, process start and supervision (`main.c`, `fork.c`, thread
library), module glue, TLS, HTTP/2, Python/Lua/Perl bindings, JSON, files and
sockets are not modelled.

## Plan per property

The status and the exact theorems are in `MANIFEST.json`.

| id | what is modelled | how it is proved |
|---|---|---|
| C01 | tokenizer + token matcher on byte strings | induction over levels against a relational MQTT spec; false for `a/#` vs `a` and `$` on inner levels: negation witnesses + exact `_partial` |
| C02 | linear matcher with asserts and the byte after the topic as parameter | simulation between position-based and level-based matching |
| C03 | entry list, user list, last-match fold | induction over the lists against a "last match" spec |
| C04, C50 | ACL token matcher | inclusion of languages, by induction; negation for slave `+` |
| C05 | 65536-bit pool | invariant over operation lists |
| C06, C42 | subscription list operations | refinement to `filter -> Option options` |
| C07 | UTF-8 decoder | case analysis on lead byte, induction over the string, both directions |
| C08, C09, C41 | increment on 32/64 bit words, the ids of instances | modular arithmetic |
| C10, C11 | base64 encoders/decoders | induction over 3-byte groups; base64url negation |
| C12 | HDLC state machine | fold over bytes, chunking by `foldl_append` |
| C13 | table-driven CRC | linearity over GF(2), the whole table by `decide +kernel`, injectivity of the byte step |
| C14, C15, C51-C53 | message byte layout, endian conversion, checksum, log and statistics messages | round-trips; negations |
| C16, C18, C57-C60 | packed array layout, integer import, unpacking | round-trip by induction over values; safety by invariants; negations |
| C17 | str export/import | round-trip by induction over bytes |
| C19-C21 | FIFO with heap pointers | refinement to lists; negation for search-and-replace |
| C22, C23 | mmap allocation index | chain invariant over operation lists; negation for C23 |
| C24 | channel slots, writer and reader program counters | invariant over all schedules |
| C25, C26 | shunting yard + evaluator | induction over expressions; negations |
| C27, C28, C64 | discern parser's abstract execution and run-time execution | simulation between type stack and value stack |
| C29, C65 | slot with n readers, reference counts | invariant over all schedules |
| C30, C31, C40, C56 | URI encode/decode; quote/unquote; strcasestr; numbers | induction over bytes, in-place buffers |
| C32 | varint | arithmetic |
| C33 | checked arithmetic helpers | omega |
| C34-C36, C61 | websocket header, masking, fragment state | round-trips, invariants, negations |
| C37, C62, C63 | modbus transaction ring | refinement to a ledger |
| C38, C39 | tokenizer, validators | induction |
| C43, C45-C49 | MQTT parser and assembler, all packet types and properties | safety over all byte strings, stability under more data, round-trips |
| C44, C54, C55 | stream reader | induction over chunks |
| C66, C67, C76 | session queues, receive side | invariant relating history and queues, over all histories |
| C68-C75 | session queues, send side | the same; order and limits by invariants over the entries of a pass |
| C77-C86 | the broker with all clients, as a transition system | invariant between the state and the history, over all operation lists; what a client sees is computed from the history alone; refinement to `Session` |
| C87 | HTTP/1 receiver: target size function called with growing data | stability of every parse function under more data, induction over the pieces; comparison of runs with and without limits |
| C88, C89 | a grammar of messages, independent of the parser | exactness of each parse function on what the grammar produces, by induction over words, elements, lines and chunks |
| C90 | abort and pointer overflow as outcomes | invariants of the part over the parse loop |
| C91-C93 | the buffer between instances, its writers and readers, as a transition system over memory cells | invariant: each cell belongs to the list, the write queue or one reader; balance of what was written, given, freed and is left, over all schedules |
| C94 | one main queue and a queue per reader, each the Pfifo model, with the broker's locks; a step per critical section | invariant: every split queue has been written what was given from the main queue; the order theorem of Pfifo twice |
| C95 | event descriptors, handlers and writers as a transition system | invariant: what a reader was told plus what is about to be told is what waits; the places where the code breaks it are witnesses |
| C96 | poll decision, and the way of a message through instances | induction over the way |
| C97 | sender, receiver and a network which loses, repeats and reorders control frames and loses messages | invariant over all schedules, with a list of the ids which may be delivered before a late copy arrives; a schedule for progress; witnesses, by induction over thousands of messages, for what fails with two senders |
| C98 | the cache as a list, one step per message or tidying | the cache agrees with the latest message of each topic in the history, an invariant over all histories; two witnesses with zero bytes |
| C99 | files as a map from path to bytes, a write may be cut off at any byte | an invariant over all histories: a file which can be read has the latest message with the hash in its name; witnesses for zero bytes, cut off writes and collisions |
| C100 | directories as lists of entries, a slice as the number of clock checks which pass | induction on the slices and directories; a directory larger than every slice is a counterexample for any number of slices |
| C101 | the loops as folds, memory which is not initialised as a parameter; FIPS 180-4 as specification, with constants from roots of primes | invariants: the last sixteen words of the schedule are in the rolling array, the state after each write holds the blocks so far |
| C102 | one direction of a stream as sender, receiver and the sets of frames and acknowledgements ever sent; the network may deliver any of them at any time | invariant: frames are numbered as cut from the queued messages, the receive buffer is sorted and holds frames sent, delivery follows the numbers; the code violates the rest, with witnesses |
| C103 | the same model with the pending send event | cases of one pass; for the violations, a state in which nothing more happens is kept by all events |
| C104 | all streams of an endpoint with their objects as keys; use after free and overflow are outcomes | invariant over all histories: keys and numbers distinct, buffers sorted, address sizes; characterisation of the failing packets |
| C105 | packets as bytes | round trip field by field; C13 (burst errors) for header and data |
| C106 | the loop as queue, messages held by the sender, finished and gone ones; runs with an arbitrary oracle for clock and answers | permutation invariant over all histories; sortedness and prefixes for order; the code violates the rest, with witnesses |
| C107 | definitions as trees, the buffer as bytes, values as in C18; the specification is a relation between what has been read before and after | each import function is proved to read exactly the texts of its type; refinement by mutual induction over the tree, both directions; witnesses where the code differs |
| C108 | aborts and accesses outside of memory are results of the model | by the same induction with the refinement as invariant; witnesses |
| C109 | two readings, one with more data | by induction over the tree, each import function either waits or gives the same |
| C110 | the position as the bytes which are left; the specification is a grammar, a relation between trees and texts | the parts of fields are proved to be read exactly; soundness by induction over the steps, completeness by induction over the length of the text; witnesses where the code differs |
| C111 | the state is both lists of chunks and the bytes in the kernel; histories of events; the answers of the kernel are any list | invariant over histories: the list is what is left of the data given, from a position in the first |
| C112 | as C111, with the loop of net transport, which goes on after partial writes | invariant for each piece of data; order by an invariant about the bytes which are left, if nothing is urgent and the kernel is steady; witnesses |
| C113 | the parser is a function from bytes to rules, an error or abort; the specification says what each line means | soundness and completeness of the parser by induction on the text; composed with C03 for decisions; witnesses |
| C114 | the parser is a function from bytes to a configuration, an error or abort; the specification is a grammar after the manual which uses the models of C110 and C27 for the texts of definitions | soundness and completeness by induction on the text; the rest of each construct is a suffix of the text (for abort); round trip of a writer; witnesses |
| C115 | the context as a structure, input byte by byte with the length in two words, padding as loops; FIPS 180-4 as specification with constants from roots | invariant: the context holds the blocks so far and the number of bits, or is corrupted; padding gives the blocks of the standard; base64 of few bytes has one line; witness for NUL |
| C116 | methods as functions from values to outcomes (possible, not possible, abort, outside), the list as recursion; the manual as relations `Makes` and `Recipe` | each method by cases against the relation, with a size which only hexadecimal doubles; induction over the recipe; round trip through `Reads`; witnesses |
| C117 | the line as a function of configuration, array and version of the array; the line protocol of InfluxDB as a separate reader | the version makes all arrays abort; reader after writer by induction over columns with a lemma for each kind of text; witnesses |
| C118 | the callback as a function to written messages and an ending | induction over the values with the round trip of arrays |
| C119 | the module as steps over a list of messages; measurements, averages and history as specification | invariant of the calculation by induction over the list; invariant of the list over all histories; witnesses |
| C120 | collections, tables and an account of held blocks as a transition system; the system gives addresses | invariant over all reachable states, built on the invariant of one map (C22) |
| C121 | settings as a list with marks, the readers as functions on texts | refinement to a dictionary by induction over histories; exact acceptance by cases and induction over the text; witnesses by evaluation |
| C122 | master, slave of each process, holders and the operating system as a transition system, with an account of what is handed out | invariant over all reachable states: versions differ by the number of unseen changes; failures of the system by evaluation, the wrap of versions by induction |
| C123 | the loop over arguments, with one round as a function; a command line is specified by the items it is written from | both directions of `parse_iff`: each item by evaluation of one round, and each accepted argument is some item; odd forms by evaluation |
| C124 | the loop over the text of an environment file; specification by lines | induction over the text, a line at a time; variables by induction over the list of assignments |
| C125 | the function with command line, environment and operating system as arguments; the specification lists the sources of each setting | equivalence source by source; child processes by reading back what is exported; limits violated by the environment: witnesses |
| C126 | reading of lines, splitting and comparison of stored passwords; specification by how users and stored passwords are written | equivalences, by induction over lines; Base64 by groups of three; key function arbitrary |
| C127 | processing of lines with the options as a record | induction over lines; authentication before and after a change compared by C126 |
| C128 | the states of the three files after each call | all outcomes of the calls, for all contents |
| C129 | recursion over trees with the consumer as a function with state; specification by what lies inside of a tree and at which level | mutual induction over trees; the run equals feeding a list of what is met |
| C130 | loop over values with an object of ordered members | induction over the array; counterexamples for several elements |
| C131 | scanner of texts, sums of digits as rational numbers with a rounding parameter; specification by the grammar and by the number written | induction over digits; error bounds of sums |
| C132 | numbers of 64 bits with their sign, text, rational numbers | digits of bytes; induction over bits; counterexamples |
| C133 | search for boundaries, parts, nested parts with fuel, fields; specification by positions of boundary lines in the text | induction over the text; boundaries do not overlap; the text of nested parts is shorter |
| C134 | making of forms and the reading of C133 together; specification by the list of fields | header lines are read as written; no boundary begins inside of a field; induction over fields |
| C135 | thread, watchdog and main thread as small step programs on one word of states and signals, time given | invariant which gives the state by the position of the thread, for all schedules; witnesses for the rest |
| C136 | any number of threads and the start procedure, steps in any order | invariant of what the main thread knows by where it is |
| C137 | model of C135, schedules without stop and timeout | second invariant on top of that of C135 |
| C138 | model of C135 | rank of the watchdog decreases at every turn where its time has come |
| C139 | packing and unpacking of bytes, a write beyond a buffer is a separate outcome | roundtrip; case analysis of the checks; witnesses |
| C140 | the tree as nested branches with names, times and values | simulation by a store of values by levels, for all histories |
| C141 | parsers of URIs and hosts on bytes, with the byte in memory after the text as a parameter | completeness and soundness of the scans, with the theorems about searches of C40; witnesses |
| C142 | graylists as lists of entries, requests with times | simulation by the connections which were made |
| C143 | fold over services with graylists and transports | invariant of the fold; replacement in the list of services; witnesses |
| C144 | encoder of forms and the parser as a loop over bytes, ways of writing a form as an inductive relation | induction over the relation; the text sent is in the relation; witnesses |
| C145 | threads as state machines with one step for each access to shared data, the lock and its holder, the table of hooks | invariant over schedules for lock and holder; invariant of the calls which have been made; witnesses of races |
| C146 | parser of environment files on bytes, `setenv` as update of a function | equality with a reading line by line, by induction over the text; witnesses |
| C147 | transition system of all processes with the shared table of forks, signals and `waitpid`; what is done under the lock is one step for other users, but children end at any time | invariants over all runs, a second invariant for runs without the three races, witnesses for each race and an invariant which shows that lost notifications never come |
| C148 | column configuration, text of the SQL statement, binding of values and buffer of messages, with the database as arbitrary outcomes | equality with a statement written as text, induction over columns, values and messages; exact condition of the abort; witnesses |
| C149 | resolution of locations, reset of destinations, counters of redirects, waiting redirects, splitting of endpoints | equality with places written as records, relation after RFC 3986 for relative paths, induction over responses; witnesses |
| C150 | hook and writing function of the journal as steps which any threads interleave | induction over steps: delivered messages followed by waiting ones are the expected messages; witnesses of silence after failure |
| C151 | index loops over byte lists with calls to a receiver which may fail | induction over the index: loops equal the calls of a list of parts or places up to the first failure; join, order and membership of these lists |
| C152 | five queues, rounds with any results of sending, checks of timeouts | induction over queues and histories: counts of each message add up; witnesses for wrapping times, the factor 0 and the rotation |
| C153 | making of packets and commands from messages, queue and its events | case analysis of configuration and message; invariant of handled and waiting messages over histories; witnesses for crash, waiting and count |
| C154 | a received publish to messages, with the bytes of the payload as the in-place conversions leave them | case analysis with the roundtrip of C14; induction on the payload for records; witnesses for altered payload, head type and read outside |
| C155 | buffer with written and unwritten bytes, position, all calls | invariant over sequences of calls relating buffer and text; witnesses for chop, reserve and the wrapping sum |
| C156 | the loops over the entries of SUBACK and UNSUBACK | induction on request and answer |

## Where the code disagrees with a property

Proved in the model with a concrete witness (the theorem names are in
`MANIFEST.json` and say which property):

* C01: filters ending in `/#` do not match the parent level; `$` is treated as
  special on inner levels.
* C02: the linear matcher reads the byte after a length-delimited topic.
* C04: a `+` in a subscription is admitted by a literal level of a rule.
* C06: a subscription refused because the list is full is announced as stored.
* C08: `rrr_increment_basic` wraps at 2^32 (`increment.c:161`).
* C11: `rrr_base64url_decode` refuses the output of the encoder unless the
  length is a multiple of three.
* C12: an empty HDLC payload is exported but never delivered.
* C15: `topic_length` of a message is not checked against its size before the
  topic is read.
* C16, C18: 32-bit sizes wrap for arrays near 2^32 bytes.
* C21: `rrr_fifo_search_and_replace` uses a stale `prev` after REPLACE.
* C22: a request within 8 bytes of 2^64 gets a 16-byte block.
* C23: after "no room for another index" a map never allocates again.
* C24: a zero-length message takes a place which looks free; later messages
  overtake. A write reports an error although the message is delivered when the
  notification fails.
* C25, C26: equal precedence is read from the right; `(5)` is 0; `((+) 1 2)` is
  accepted and then reads outside of its array.
* C27, C28: list sizes wrap for texts of 805 MB; tags with NUL change the
  outcome of index lookups; UTF-8 topic filters are refused.
* C31: `\` and CR do not survive quoting; sizes wrap at 2^31.
* C33: `rrr_biglength_from_ptr_sub` truncates to 32 bits.
* C35, C36, C61: control frames between fragments lose data; header plus
  payload length wraps at 2^64.
* C40: `rrr_http_util_strcasestr` misses occurrences after a partial match and
  reports partial matches at the end.
* C43: an MQTT 5 SUBSCRIBE with No Local or Retain As Published aborts the
  broker (`mqtt_parse.c:1100-1170`, `mqtt_subscription.c:63`).
* C44, C49: SUBSCRIBE without its last options byte is parsed with the first
  byte of the next packet.
* C47, C48: binary properties do not survive; strings are only checked up to
  the first NUL byte.
* C51, C52: empty and truncated log texts are refused; short log messages are
  read outside of their memory; statistics of 513 to 1025 bytes overrun a stack
  buffer.
* C55: message heads with correct checksum and sizes 0 to 17 abort.
* C57-C60: vain values with data abort when packed again; every tag is found in
  malformed messages; integers by index scale the index twice; nested messages
  abort or read outside.
* C63: a response with a wrong function code leaks the private data.
* C65: `write_incref` and `write_from_collection` of the slot use entries after
  they can have been freed.
* C66: an identifier used again before the queue was worked on.
* C69, C71: an acknowledgement for a message which was not sent yet ends its
  exchange; a client session aborts on SUBACK for a PUBLISH and the like.
* C72: with Receive Maximum 1 nothing with QoS 1 or 2 is ever sent; exchanges of
  QoS 2 are not counted after the PUBREC; expired messages are not counted.
* C73: a failed transmission, or a retained message, is overtaken.
* C74: everything is repeated when the clock is set back.
* C75: clients send expired messages; expired messages are never dropped.
* C76: a QoS 1 message which is repeated before the queue is worked on is delivered
  again when its identifier is used for another message.
* C81: will delays of 4295 s and more overflow 32 bits; wills are lost on write
  errors, and when the session ends by the 20 s rule.
* C82: sessions which never expire, and sessions which are resumed, are removed
  20 s after the client was last heard.
* C84: a user who connects with the client identifier of another user keeps the
  subscriptions of the session without access check.
* C85: generated client identifiers can be those of existing sessions, whose
  undelivered messages are sent although the session is clean.
* C88: the body of a response which ends with the connection is lost; values
  which end with `=` and empty values after `;` close the connection; a
  `Content-Length` with a space before the colon is overlooked, one which does not
  fit in 64 bits wraps, and the first of several counts, also with `chunked`.
* C89: the body of a chunked request is read beyond the end of the data, for every
  chunked request (`http_part.c:762`); the line ends after chunks are not checked.
* C90: `Link: <u> ; rel=x` aborts (`http_header_fields.c:920`); chunk lengths near
  2^64 lead to pointers beyond the address space (`http_part_parse.c:381`).
* C92: a reader which stops with entry 500 of a call puts back an entry which it
  has not taken; another reader may have it or have freed it (`fifo_protected.c:583`).

Seen while reading, not proved (outside of the modelled code or of the listed
properties):

* `p_incrementer.c:628`: the filter is not validated, so that a filter such as
  `#x` aborts when it is matched.
* `mqtt_parse.c:683`: binary properties are counted twice; properties may
  overrun the declared length; acknowledgements with reason but without property
  length are refused; PUBACK accepts reason 0x92; the reason of DISCONNECT is not
  checked; early returns leak properties.
* `mqtt_assemble.c:209`: identifiers are counted twice; assembling an empty
  string or blob aborts.
* `read.c:420`: `read_max_size` is compared with the whole buffer.
* `fifo.c:458`: `call_again` ignores ORDERED; `fifo.c:769`: the return value of
  the callback is ignored at the 500th read; the count wraps.
* `http_util.c`: `wss://` is parsed as `ws`; `uri_dup` does not copy the
  endpoint; `find_whsp` misses the last byte; saturation of `strtoull` is not
  checked. `http_part_parse.c` chunk lengths can overflow a pointer.
* `array_tree.c:1302`: `resolve_ref` compares a prefix of the tag only; element
  counts taken from imported data overflow 32-bit sizes.
* `type.c:590-617`: importing several messages never advances; `type.c:1321`
  divides by an element count from the network.
* `rrr_modbus.c`: one-byte error responses pass an uninitialised exception code.
* `mmap_channel.c`: results of `shmat`, `shmctl` and `shmdt` are compared with
  the wrong values.
* `mqtt_broker.c`: version 3.1.1 clients with wrong credentials of the kind 0x83
  get no CONNACK and are not closed; a client can send DISCONNECT with reason
  0x8E, and its will is never published.
* `mqtt_broker.c`: `check_client_identifier` compares a pointer to a pointer with
  NULL; `handle_connect_will` compares a pointer with 0.
* `p_httpclient.c`: position and lock arguments of the queue rotation are swapped; the
  documented factor 0 of the timeout for low priority is refused as an overflow.
* `p_mqttclient.c`: `mqttclient_process_command_get_topic_filters` returns success without a
  collection after a warning, and the callers read from it; waiting messages are not handled when
  the periodic event enables sending; discarded messages are counted twice.
* `p_mqttclient.c:1369-1434`: the conversion to host order is done in the payload of the publish; when a
  later check fails and the message was only announced by content type, the converted bytes are delivered as
  data. The type in the head is not compared to that of data messages.
* `string_builder.c:253-259`: chop only moves the position, the character stays in the C string;
  `http_query_builder.c:217` uses it to remove the equal sign after a name without value, which stays there if
  nothing is added after it.
