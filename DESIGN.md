# Formal model of runtimepy: design

The model is written in Lean 4 (`/verif/lean`). It is read off the Python source
in `/repo` (which is never run). One directory per area under
`lean/Verif/`, each split into

* `Model` – executable definitions, each citing the file and lines it models and
  saying where it simplifies;
* `Spec`/`Lemmas` – small specifications written without the model's helpers,
  and supporting lemmas;
* `Props` – the property theorems (names start with the property id) and, beside
  each, a concrete case that meets its hypotheses.

## Conventions

* Bytes are `List UInt8`. Python `int` is `Int` (or `Nat` where the code can only
  produce non-negative numbers). Python exceptions are values
  (`Except PyErr`), never totalised away.
* ctypes storage is modelled as reduction modulo `2^bits` into the type's range.
* Floating point: values of `float`/`double` primitives are opaque 32/64-bit
  patterns on the wire. Rounding is modelled where it matters: `Prim/Float.lean` (what a
  primitive stores and sends) and `Scaling/Floating.lean` (scaling in doubles);
  elsewhere arithmetic is exact rational arithmetic.
* asyncio: one atomic step is the code between two suspension points. Schedules
  are arbitrary lists of steps.
* A property that the code does not satisfy is kept in `properties.jsonl` as the
  user would expect it. The model proves the negation on a concrete witness
  (suffix `_fails`) and the strongest true restriction (suffix `_partial`).

## Trusted base

* Lean 4.33.0's kernel. The axioms each theorem depends on are listed one by one in
  `AXIOMS.md`, written by `tools/axioms.py` from `#print axioms`; only `propext`,
  `Classical.choice` and `Quot.sound` occur. No own axioms, no `sorry`, no
  `native_decide`/`bv_decide`.
* The transcription from Python to Lean, done by reading. Every definition cites the
  lines it was read from and says where it simplifies.
* The behaviour of CPython: `dict` insertion order, integer bit operations, `struct`,
  `ctypes` wrap-around, generators running only when iterated, `asyncio` running a
  task without interruption between two awaits.
* The third-party package `vcorelib` (not available in the sandbox):
  `ByteFifo.pop(n)` returns the first `n` bytes if there are that many and otherwise
  nothing; `repeat_until(f, event, period, timeout)` calls `f` until the event is set
  or time is up; `name_search`, `StrToBool`, `Namespace` behave as they are named.
* Left abstract, as parameters of the theorems: the regular expression for names
  (`validName`), rounding on storing a float, the HTTP header language, user hooks
  and handlers, the clock, and the network.

## What is modelled

| source (under `/repo/runtimepy`) | Lean | left out |
|---|---|---|
| `primitives/types/*`, `byte_order.py` | `Wire` | IEEE arithmetic (bit patterns only) |
| `primitives/base.py`, `int.py`, `bool.py`, `float.py` | `Prim` | `__str__`, hashing |
| `primitives/evaluation.py` | `Eval` | wall-clock accuracy of time-outs |
| `primitives/scaling.py`, `types/bounds.py` | `Scaling` (exact), `Scaling/Floating.lean` (rounded to doubles) | overflow and subnormal numbers |
| `primitives/field/*` | `Bits`, and the manager in `Protocol` | file encoding of the data |
| `mapping.py`, `registry/*`, `enum/*` | `Registry` | schema validation of loaded data |
| `primitives/array`, `primitives/serializable/*`, `struct`, `string.py` | `Serial` | native-order alignment beyond `C20_native_fails` |
| `codec/protocol/base.py`, `json.py` | `Protocol` | meta data, schema validation |
| `message/__init__.py` framing | `Message/Framing` | |
| `channel/event/*`, `telemetry` | `Event` | |
| `channel/*`, `channel/environment/base.py`, `file.py` (values), `command/*` | `Env` | argument parser usage text, file formats |
| `net/udp/tftp/*` | `Tftp` | wall clock, file system beyond path joining |
| `net/http/*`, `net/tcp/http` processing | `Http` | TLS |
| `net/tcp/telnet` | `Telnet` | option negotiation |
| `message/interface.py`, `handlers.py`, `subprocess/peer.py` identifiers | `Json` | JSON text itself (values are trees) |
| `net/connection.py`, `net/backoff.py`, `net/manager.py` | `Net` | the transports below `_send`/`_await_message` |
| `task/basic/periodic.py`, `task/asynchronous.py` | `Task` | wall-clock averages |
| `net/arbiter/base.py` stages, `result.py` | `Arbiter` | logging, signal handling |
| `mixins/async_command.py` | `Env/CommandQueue` | |
| `net/server/json.py`, path look-up | `Server` | |
| `metrics/*` | `Metrics` | wall clock |
| `net/tcp/scpi`, `net/tcp/telnet/np_05b.py` | `Device` | the connection below |
| `channel/environment/array.py` | `Env/Array` | |
| `channel/environment/file.py`, `create.py`, `base.py` `add_field` and `finalize` | `Env/Load*` | descriptions, controls, file encoding |
| `net/server/websocket` and `net/server/app/env` (channel values of a tab) | `Server/Tabs` | plots, the browser's own code |
| `net/server/__init__.py` (files, routes, redirects) | `Server/Files` | MIME types, templates, markdown text |
| `net/tcp/http/__init__.py` (request and response tasks) | `Http/Client` | TLS |
| `net/connection.py` `_process_read` | `Net/Incoming` | the handlers themselves |
| `codec/system/__init__.py` | `Codec` | searching in a `Namespace` (abstract), half precision |
| `net/arbiter/base.py` and `imports` registration, `command/__init__.py` global environments | `Arbiter/Names` | factories, construction of the objects |
| `subprocess/protocol.py`, `__init__.py`, `peer.py` queues, `interface.py` handlers | `Net/Pipes*` | the operating system's pipes, what handlers do |
| `mixins/logging.py` log capture | `LogCapture` | newline translation, decoding, the logger |
| `control/step.py` | `Control/Stepper` | the rate of counts, plots, what structs do |
| `net/udp/connection.py`, `net/tcp/connection.py` transports, `net/mixin.py` | `Net/Restart` | name resolution, `sock=` and `family=` arguments, the gone-socket `AttributeError`, other errors than refusal |
| `net/stream/__init__.py`, `base.py`, `string.py` over UDP | `Net/Datagrams` | metrics, what handlers do |
| `net/arbiter/struct/__init__.py` transceivers, `net/mtu.py` probe | `Net/Telemetry` | socket options, the MTU the system gives, the cache |
| `net/arbiter/config/__init__.py`, `config/util.py` (`list_adder`), `factory/*.py`, `imports/__init__.py`, configuration of `info.py` | `Arbiter/Config.lean` | C81; arguments, ports, config builders and application entries left out; importing a path is a parameter, as are snake case and joining of names |
| `net/arbiter/base.py` `_main` up to the application, `_init_connections`, start of servers | `Arbiter/Startup.lean` | C82; processes, deferred connections and everything after the application is entered left out |
| `net/arbiter/info.py` `search`, `single`, `search_tasks`, `search_structs` | `Arbiter/Search.lean` | C83; the search of the namespace (vcorelib) is a parameter |
| `net/websocket/connection.py` `_await_message`, `_send_text_message`, `_send_binay_message`; `net/connection.py` `_process_read`, `_process_write_*`, `EchoConnection` | `Net/Websocket.lean` | C84; the websocket protocol as two ordered wires, a round of a task as one step |
| `net/arbiter/config/codec.py` ports, `config/util.py` `fix_args`, `fix_kwargs`, arguments of clients and servers in `config/__init__.py`, `commands/server.py` | `Arbiter/Ports.lean` | C85; variable resolution (vcorelib) assumed, sockets are a parameter, markdown and included files left out |
| `net/server/websocket/__init__.py` `_get_ui`, `_poll_ui_state`, `disable_extra`; `net/server/struct/__init__.py` | `Server/UiCount.lean` | C86; a replaced singleton, the struct's other metrics left out, the rate limiter is a boolean per frame |
| `subprocess/interface.py` 115–152, `message/handlers.py` 29–59, `mixins/async_command.py` 46–66 between two programs | `Env/Remote.lean` | what argparse does with this parser is assumed (`Laws`); sending a request and running it at the peer is one step, without time-outs; result texts are left out |
| `channel/environment/command/__init__.py` 44–230 (`GlobalEnvironment`), `channel/registry.py` 141–163, `channel/event/__init__.py` 41–68 as one system | `Event/Record.lean` | files are lists of events without timestamps; an exported directory is the values at that time; no minimum period; `!=` sees every change |
| `subprocess/peer.py` 49–91 and 239–258, `program.py` 49–57, 90–121 and 166–206, `interface.py` 103–131, 157–192 and 224–243 as two processes and three pipes | `Net/Mirror.lean` | pipes carry whole messages and events; replies told apart by kind; messages that do not change environments left out; no rate limits |
| `net/udp/tftp/base.py` 131–185 and 276–370 (endpoint dictionaries, first answers, dispatch), `endpoint.py` 78–141 | `Tftp/Endpoints.lean` | endpoint objects named by the address they were created for; `hostname` a parameter; locks left out (any order of steps) |
| `net/server/app/env/tab/controls.py` 39–157, `tab/html.py` 91–181, `env/widgets.py` 54–68, `data/js/classes/TabInterface.js` 130–184 (controls and their commands) | `Server/Controls.lean` | `str` of a value a parameter that parses back; command lines as words; styling, slider values and plot check boxes left out |
| `tui/channels/__init__.py` 53–139, `tui/mixin.py` 61–83 (body of the text interface) | `Tui/Channels.lean` | `addstr` of curses assumed; header, wide characters and windows too small to be made left out; the format `5.6f` is a parameter |
| `net/server/app/create.py` 36–98, `net/server/app/__init__.py` 59–94, `net/server/html.py` 29–47, `net/server/app/env/__init__.py` 20–159, `net/html/bootstrap/tabs.py`, `env/modal.py`, `TabInterface.js` 18 and 318, `TabFilter.js` | `Server/Pages.lean` | documents are what `compose` makes of the application's state; elements within a tab and the experimental tabs and dialogues left out; the pattern of the filter is a parameter |
| `data/js/classes/WindowHashManager.js` | `Server/WindowHash.lean` | the page is its tabs and their check boxes; texts of numbers and the encoding of characters in a URL are parameters; names that look like numbers and filters that are no expressions left out |
| `data/js/classes/PointBuffer.js`, `PointManager.js` | `Server/Points.lean` | numbers are rationals, a quotient by zero is `none`; capacities at least two; the line is the list of its points |
| `data/js/classes/PlotManager.js`, `PlotDrawer.js`, `OverlayManager.js` 112–121 | `Server/Plots.lean` | one thing per message; colours, the text of the overlay, the drawing library and the stand-in context left out; the factor of a change of capacity is 21/20 |
| `net/arbiter/housekeeping/__init__.py` 50–74, `mixins/async_command.py` 45–66, `net/manager.py` 40–45, `net/connection.py` 367–383 | `Arbiter/Housekeeping.lean` | `asyncio.gather` as documented; handlers are a start and an end that returns or raises; pausing and stopping the task left out |
| `data/js/classes/ChannelTable.js`, `TabInterface.js` 337–421, `App.js` 46–52 and 106–128, `JsonConnection.js` 37–60 and 80–92 | `Server/Table.lean` | cells are numbers or texts, not characters; floats are the rationals they stand for; sliders, logs, actions and colours left out; a number in a text is not rounded to a double; a message is one websocket message |
| `task/basic/periodic.py` 131–221 (`run`, `stop`, `task` as coroutines) | `Task/Stop.lean` | metrics, periods and times left out; `stop_extra` returns at once; a dispatch takes no notice of cancellation (it is shielded) |
| `primitives/float.py`, `types/float.py`, `base.py` 134–166 and 199–247 for float kinds | `Prim/Float.lean` | which NaN it is is not kept; C casts, `struct` and ctypes truth as documented; `math.isclose` without its own rounding |
| `task/basic/periodic.py` 139–187 with time, `metrics/task.py` 49–77 | `Task/Timing.lean` | exact seconds instead of floats; `rate_hz`, `average_s`, `max_s`, `min_s` (computed by vcorelib) left out |
| `mixins/trig.py`, `task/trig/__init__.py`, `control/env/__init__.py`, defaults of `ui/controls.py`; `telemetry/sample.py` 57–99 | `Task/Driven.lean` | real numbers instead of floats for the sinusoid; what the framer sends on its own (C26) is not subtracted from the waiting samples |
| `subprocess/program.py` 96–127 and 169–215, `subprocess/__init__.py` 28–69 | `Net/PeerEnd.lean` | a message is reduced to how its handling ends, `main` and the heartbeat to how they end; partial lines at the end of the pipe are left out |
| `net/arbiter/base.py` 344–380 and 434–463 | `Arbiter/Leaving.lean` | `_main` is a sequence of steps that may raise; a task is what awaiting it gives; the connections a server accepted, which only the stop signal reaches, are left out |
| `net/tcp/create.py` 23–77, `net/udp/create.py` 21–82, `net/util.py` 215–232 | `Net/Connect.lean` | what an address gives at each attempt is arbitrary; `create_connection` of asyncio (order of addresses, choice of the exception) is modelled from CPython |
| `data/js/JsonConnection.js` 36–91 | `Json/Browser.lean` | ECMAScript's `ArrayBuffer`, `DataView`, `in`; JSON texts and values abstract; key order as given |
| `data/js/JsonConnection.js` 38–62 with `message/interface.py` 213–330, `data/js/worker.js` | `Json/BrowserExchange.lean` | two queues; the server's handlers are any function that makes no loopback out of nothing |
| `net/html/bootstrap/elements.py` 131–165, `ui/controls.py`, `net/server/app/env/tab/controls.py` 118–134, `data/js/init.js` 23–45, `TabInterface.js` 146–188, `App.js` 68–96 (sliders) | `Server/Slider.lean` | the HTML standard's range input; rationals instead of floats |
| `data/js/worker.js` 16–29 and 83–98 (frames sent to the server) | `Server/Pacing.lean` | rational times; NaN as its own value |
| `data/js/classes/UnitSystem.js`, `OverlayManager.js` 1–113 | `Server/Overlay.lean` | rationals instead of floats; times not negative |
| `data/js/classes/TabInterface.js` 80–112, `TabFilter.js` 17–47, `App.js` 31–62 (reaching the main loop) | `Server/Filters.lean` | regular expressions a parameter; no selections in the text box; tabs by name |
| `data/js/util.js` 1–32, `worker.js` 1–13 and 35–88, `classes/JsonConnection.js` 8–30 and 92–111, `classes/App.js` 14–64 | `Server/PageStart.lean` | URLs as their parts; initialisation of tabs one step; of messages for tabs the keys |
| `data/js/classes/TabInterface.js` 238–315, `WindowHashManager.js` 47–103, `PlotModalManager.js`, `init.js` 45–47, colours of `PlotManager.js` and `PlotDrawer.js`, ids of `env/tab/html.py` and `env/widgets.py` | `Server/Boxes.lean` | messages to the worker handled at once; no channel name ends in `line-color`; every tab has a plot |
| `net/util.py` 18–172, `net/mtu.py`, the dictionary of endpoints of `net/udp/tftp/base.py` 164–185 | `Net/Hosts.lean` | arguments of the annotated types; answers of the name service and the sockets arbitrary at each question; `address_str` is the outcome `resolve` |
| `net/server/websocket/state.py` 39–107, `net/server/websocket/__init__.py` 84–111 and 145–157, `net/server/app/env/tab/message.py` 40–86, `mixins/logging.py` 32–66, `data/js/classes/TabInterface.js` 62–79 and 330–421, loggers of CPython's `logging` | `Server/Logs.lean` | propagation is on everywhere; `ListLogger` of vcorelib keeps records in order; closed connections get nothing new; points in C95 |
| `mixins/environment.py`, `channel/environment/create.py` 38–83 under namespaces, `net/arbiter/info.py` 53–88, `net/arbiter/base.py` 220–342 for structs, `struct/__init__.py` 52–68, `control/source.py` | `Arbiter/Structs.lean` | `Namespace` of vcorelib is a stack joined with dots; only names of channels; `build` awaits nothing; connections and servers are left out; floats are abstract |
| `net/html/arbiter.py`, `net/server/app/__init__.py` 26–53 and 73–81 | `Server/Prefixes.lean` | on top of `Server/Files.lean`; a browser follows locations as they are written; starting `xdg-open` itself is left out |
| `net/ssl.py`; its calls in `net/tcp/create.py` 22–32, `net/tcp/connection.py` 111–172, `net/websocket/connection.py` 92–117; `commands/server.py` 17–77 | `Net/Tls.lean` | values are abstract; what `ssl` does with a context is left out, making one works or raises; a keyword argument named `client` is left out |
| `net/html/__init__.py` 90–164, `net/server/app/base.py` 44–73, `net/server/app/tab.py` 63–91, `net/html/bootstrap/tabs.py` 120–160, `data/js/init.js` 8–17 | `Server/Scripts.lean` | files are texts found by address, as vcorelib's writer emits them; svgen writes an element's text as it is; script data states of the HTML standard; escapes of more than one character in literals, other elements, style sheets and scripts from elsewhere are left out |
| `mixins/regex.py`, its use in `mapping.py` 62–65, `registry/name.py` 37–62, `registry/bool.py` 12–26, `channel/registry.py` 38; `command/processor.py` 173–178, `command/parser.py` 41–76 (classification of words) | `Names.lean` | a parser and the matching relation of the part of Python's regular expressions used; `\w` beyond ASCII a parameter; argparse without words containing `=` |
| `telemetry/sample.py` 63–107 (the task), with `capture` of `net/arbiter/struct/__init__.py` and the framer | `Task/Flush.lean` | samples abstract, the connection up, commands only those that set `flush_count` and `paused` |
| `net/websocket/connection.py` 57–89, 118–164 (`server_handler`), with `net/manager.py` 67–132 and `process` of `net/connection.py` | `Net/Served.lean` | the library closes a connection when its handler returns or raises; messages in C84; the one second granted at the end in C104 |
| `entry.py`, `__main__.py`, `app.py`, `commands/common.py` 45–93, `commands/arbiter.py`, `commands/task.py`, `commands/tftp.py`, `commands/tui.py`, `commands/mtu.py` | `Arbiter/Programs.lean` | the argument parser, logging, applications, transfers, the interface and the probe are parameters (any outcome, any effect on directory and files); vcorelib's `run_handle_stop`, `tempfile`, `app_args` and Python's `sys.exit` assumed; rates are rationals |
| `net/arbiter/imports/util.py` `get_apps`, `net/arbiter/config/__init__.py` 229–235, `net/arbiter/base.py` 63–76, 319–330, 368–383 | `Arbiter/Apps.lean` | importing a path and running a stage are parameters; exceptions of a stage are in C55 and C104 |
| `data/js/classes/TabInterface.js` 190–243, `data/js/init.js` 23–32, layout rules of `data/css/bootstrap_extra.css` 48–56 | `Server/Divider.lean` | flex layout reduced to left edge, width with maximum, divider; whole pixels |
| `data/js/audio.js`, `data/js/tab/sound.js` 7–54 | `Server/Audio.lean` | times are rationals; the wave is any function; promises are fulfilled in any order |
| `channel/__init__.py` 51–133 (defaults), `channel/environment/__init__.py` 38–60, `channel/registry.py` 100–137 (defaults), `task/basic/periodic.py` 102–122, `registry/item.py` | `Env/Defaults.lean` | floats are rationals, rounding and closeness any functions; objects are numbers |
| `channel/environment/create.py` 35–163, `channel/environment/base.py` 81–104, 230–279, 404–410 | `Env/Typed.lean` | names are valid; identifiers are new (C17); sets hold identifiers (C128); no defaults (C127) |
| `primitives/int.py` 43–60, `primitives/float.py` 37–48, `primitives/evaluation.py` 166–188, `channel/environment/base.py` 280–402 | `Eval/Scaled.lean` | exact rational arithmetic; waiting and sampling themselves are C09 and C10 |
| `subprocess/peer.py` 132–160 | `Net/Script.lean` | the two lines of the script with texts from outside; string literals as in the Python reference, without numeric and named escapes |
| `primitives/base.py` 102–119, 142–166, iteration over a dictionary in CPython | `Prim/Reentrant.lean` | callbacks that assign, raise, register or remove; endless recursion has no run; callbacks for one time are not combined with assigning ones |
| `task/basic/manager.py`, `task/basic/periodic.py` 192–220 as seen from the group | `Task/Group.lean` | `asyncio.gather` after all its parts have run; one task's course is C99 |
| `enum/registry.py` 52–94, `enum/__init__.py` 166–181, `mapping.py` 62–83 and 122–141, classes of CPython's `enum` | `Registry/PyEnum.lean` | names in ASCII; aliases as in CPython; registration itself is C17, C18 |
| `net/connection.py` 236–318 as seen from `process_then_disable`, `net/udp/tftp/__init__.py` 228–232 | `Net/Scoped.lean` | turns of the task in any order with the body; no stop signal; delays are C51 |
| `channel/environment/base.py` 112–228 and `primitives/field/manager/base.py` 89–209 for names shared by channels and fields | `Env/Shared.lean` | one number per channel or field; valid names; texts for fields only |
| `mixins/finalize.py`, `tui/cursor.py` | `Finalize`, `Cursor` | drawing |

Not modelled: command-line entry points (`commands` but for `server`, `entry.py`, `app.py`), HTML
generation (`net/html`, the pages of `net/server/app`), TLS set-up, curses drawing, package and
schema loading, logging, `psutil` polling.

## Plan per property

| id | what is modelled | how it is proved |
|----|------------------|------------------|
| C01–C02 | `struct` pack/unpack of all integer types and orders as little-endian digit lists | induction on the number of digits; positional-value spec |
| C03 | ctypes wrap, `set_value`, `increment` | invariant over operation lists |
| C04–C06 | primitive cell with callback table and a log of calls | refinement to an abstract event log; induction over operations; C06 has a counterexample |
| C07–C08 | `scaling.py`, `bounds.py` over `Rat`/`Int` | algebra; order reasoning |
| C09–C10 | waiter/sampler as a transition system with arbitrary schedules | induction over schedules |
| C11–C14 | bit operations on unbounded integers, claim table | bit extensionality; allocation invariant; refinement to independent variables |
| C15 | `asdict`/constructor | round trip under stated layout conditions; counterexamples |
| C16–C19 | two dictionaries, name registry, item registry, enum | bijection invariant by induction over operations |
| C20–C21 | array of primitives, fragments | list induction |
| C22–C23 | chains as lists, a heap of cells for independence | list induction; frame lemmas |
| C24–C25 | prefix codec over the integer codec | round trip; counterexample for non-ASCII |
| C26–C27 | framer state machine, datagram parser | invariant over captures; composition |
| C28–C29 | protocol object: field table plus array | refinement to a record; counterexamples for copies |
| C30–C31 | framing parser with FIFO, generator abandonment as an operation | simulation against a whole-stream parser; counterexample |
| C32–C34 | event header and payload encoding, parser state, rate limiter | simulation; counterexample; invariant |
| C35–C37 | environment with channels, enums, bit-fields; command processor | case analysis and frame theorems |
| C38–C41 | chunker, reader/writer endpoints and adversarial network, packet codec, path joining | invariant over arbitrary schedules; counterexample |
| C42–C43, C62 | HTTP state machine, header text, request target | simulation; string round trips; counterexample |
| C44 | telnet splitter | counterexample and partial |
| C45–C47 | JSON interface: waiters, handlers, two-peer exchange | invariant over schedules; non-termination witness |
| C48–C52 | connection, writer queue, restart loop, back-off, manager | invariants over arbitrary schedules; counterexamples |
| C53–C54 | task loops | induction over iterations; counterexamples |
| C55 | stage runner | list induction; counterexample |
| C56 | command queue | invariant |
| C57–C58 | path splitting, JSON traversal | list/tree induction |
| C59–C61 | counters, finalise flag, cursor | invariants over histories |
| C63 | primitive with a clock | invariant over operation lists |
| C65–C66 | line devices: transcript parser, request and reply queues | simulation for every layout; invariants over histories; counterexamples |
| C67 | the array builder over an environment | characterisation of acceptance; counterexample |
| C68 | export, load and building calls of an environment | invariant over building histories; refinement of the loaded to the exported environment |
| C69 | channel table, tabs and a browser view with hide, show and frame events | invariant over histories; counterexamples |
| C70 | search directories as an abstract file tree, request routing | characterisation of the answer; counterexamples |
| C71 | request lock, response queue, processing task | invariant over schedules with cancellation; counterexamples |
| C72 | reading task over the protocol's queue | invariant over histories; counterexamples |
| C73 | type table with enumerations, sizes by field walks | invariant over building histories; counterexamples |
| C74 | name tables of connections, structs, tasks and processes; start-up | invariant over registrations; exact characterisation of start-up |
| C75 | two queues, message framing, event parser, the servicing task | simulation against the chunks handled; composition with C30 and C33; counterexamples |
| C76 | growing file, line reader | pieces of the file by well-founded recursion; counterexamples |
| C77 | a connection over its successive transports | invariants over the history; frame lemma; counterexamples |
| C78 | steppers, structs and the time source | closed form of an iteration; refinement to the iterations asked for; counterexamples |
| C79 | messages over UDP from several peers | round trip over arbitrary arrivals; closed forms for stray and cut datagrams; counterexamples |
| C80 | struct telemetry over UDP | composition of C26, C27 with arbitrary arrivals; counterexamples |
| C81 | configurations make applications | each stage of `process_config` against what the lists say; acceptance iff; counterexamples |
| C82 | starting an application | invariants over all schedules of servers, connections and the main coroutine; stuck states |
| C83 | finding connections, tasks, structs | membership outright; counterexamples |
| C84 | two websocket connections | invariant over interleavings; counterexamples |
| C85 | ports of a configuration, the `server` command | text laws, structural induction over values, list induction with an arbitrary operating system; end-to-end statements for TCP, UDP and websockets |
| C86 | the connections that share the UI struct | invariants over histories, any number of connections; counterexamples |
| C87 | remote commands have at the peer the effect of the command, in order and once | text round trip through `split` and the parser laws, invariant over all interleavings of lines and queue turns |
| C88 | a recorded run can be loaded and replayed to every moment | invariant over all operations of a session, refinement to the list of changes of each channel |
| C89 | the host's copy of a program's environment follows the program, and the exchange completes | invariant over all interleavings with time-outs; trace argument for past states; progress measure under fair schedules |
| C90 | transfers with different hosts on one TFTP connection do not disturb each other; a transfer follows the address its server answers from | non-interference by an unwinding relation over all event sequences; invariants of the dictionaries |
| C91 | every commandable row of a channel table has one control for its value; toggles, drop-downs and reset buttons do what they show | decision logic over all environments and states, through the command handler of C37; induction over the reset buttons |
| C92 | the text interface shows the name and the current value of every channel | exact contents of the screen after any sequence of updates, by induction |
| C93 | a path serves the page of its own application; the page has a tab for every entity, and every tab finds its own elements | runs of requests and changes, by induction; identifiers by injectivity and first occurrence |
| C94 | the hash of the window restores the view | exact text of the hash, then taking it apart piece by piece; what no hash restores by invariants of the reading loops |
| C95 | a plot shows the last points of its channel, in order and within the plot | ring invariant by induction over ingests, clearings and changes of capacity; drawing outright |
| C96 | a tab plots the channels whose boxes are checked, with the points they got since | invariants over all sequences of messages, refined to the last change of each box and to the points delivered since |
| C97 | queued commands are started in order, each once, and all those queued before a dispatch by its end | invariants over all interleavings of queueing, dispatching, handlers and connection tasks; an explicit schedule that drains |
| C98 | a shown tab shows the last value that came for each channel, and marks those that stopped coming | refinement to the list of values received over all interleavings of messages, frames, tab changes and typing |
| C99 | calls of `stop` and `task`: one run at a time, one dispatch at a time, nothing after `stop` | invariant over all interleavings of callers, runs, dispatches and cancellations |
| C100 | float primitives hold and send the nearest value; callbacks, truth and equality follow the value | rounding proved nearest (ties to even) for all patterns of all three formats, monotone and exact on values of the format |
| C101 | a periodic task counts its dispatches and overruns and is never faster than its period | counters by induction over turns, spacing of starts as an invariant |
| C102 | sinusoid and telemetry follow the dispatch counter | invariant over channel writes and dispatches; period and wrap over the reals; flushes counted over any number of wraps |
| C103 | a peer process ends after having handled what was sent | invariant over all interleavings; measure for progress under fair schedules; universal negations for stuck states |
| C104 | leaving an application ends everything, in order | induction over contexts, connections and tasks; negations for exceptions on the way |
| C105 | connecting is retried | well-founded recursion over the tries left; exact waits; negations for several addresses |
| C106 | browser framing and keys | refinement of the server's framing, by recursion over the buffer |
| C107 | a server and a browser | invariant over all interleavings; counting; a decreasing measure |
| C108 | sliders | nearest-position theorem for all bounds and steps; histories of pointer events |
| C109 | pacing of frames | bounds from both sides over all histories of frames and settings |
| C110 | the text over a plot | exact value of the shown duration for all whole numbers; the drawn lines after every history of events |
| C111 | filters of channels and tabs | the rows shown after every sequence of keys, by induction; when a page starts from a hash |
| C112 | a page finds its connections and starts | ports chosen, for all lists; invariants of the two threads over all interleavings |
| C113 | boxes, colours and the list of plotted channels | invariant over every history of clicks, clearings, restored hashes and frames; hexadecimal texts by induction on digits |
| C114 | hosts as keys, their names, the size of datagrams | caches with a name service that may answer differently each time; invariant over every history; the fixed function `hn` of C90 is a theorem here (`C114_names`), as is that endpoints are found by equal addresses (`C114_endpoints`) |
| C115 | log messages on their way to the boxes of tabs | invariant over every history of any number of pages and loggers against a specification of what is due; decision logic of `onmessage` |
| C116 | the life of structs: names, metrics, the poll command, sources, the final poll | refinement of nested blocks to a list of names; an exact list of what is observed for every way an application ends |
| C117 | prefixes of the web application: configuration, registration, redirects a browser follows, the browser at the start | list induction; exact characterisations; end-to-end statement over the server's answers |
| C118 | requests for TLS: which arguments ask for it, the context made, the arguments handed on, restarts, addresses, the command line | exact characterisation over all argument dictionaries; induction over restarts |
| C119 | scripts of the page: files gathered, the worker's program, order, where a browser ends a script, names in literals, the active tab | list induction; round trip of composing and reading; exact characterisation of names |
| C120 | names: the patterns' language, registries, namespaces, command lines, the page's scripts | parser and matching relation, exact language by induction; invariant over registrations; injectivity of joining |
| C121 | when sample telemetry is sent: order, delay, sizes, a flush count of zero | invariant over rounds and commands; exact sizes by induction over rounds; delay bound across the counter's wrap |
| C122 | connections accepted by a websocket server: when they are closed, processed, let go | invariant over all interleavings of handlers, rounds, tasks and peers; progress by counting rounds; explicit endless loop |
| C123 | what the programs end with, where, and which files they leave | case analysis over every outcome of the parts; the parts are arbitrary functions |
| C124 | which application methods are run, in which stages, and the waiting at the end | induction over the lists of the configuration and over stages |
| C125 | the divider of a tab follows the pointer and stays in the window | invariant over all events; induction over drags |
| C126 | samples of the audio processor, the button that switches sound | induction over blocks; invariant over all interleavings of clicks and promises |
| C127 | the default of a channel, its type and value, and what is exported | decision outright; induction over operations |
| C128 | equality of registry items and the sets that hold them | induction over the entries |
| C129 | channels found by their Python type, and their enumerations | invariant over all creations, finalization and loads |
| C130 | what a scaled channel is compared with while waiting, and what samples give | order lemmas for the inverse of a linear scaling; induction over samples |
| C131 | the script of a peer program passes on its path and its name | round trip of escaping and reading a literal, by induction over the text |
| C132 | callbacks that act on their primitive | big-step relation of nested assignments, induction over derivations; loop over a dictionary that changes |
| C133 | groups of periodic tasks | registration refines “first of each name”; start and stop of every task, around any body |
| C134 | Python enumerations and the runtime enumerations made of them | iteration without aliases, induction over definitions, round trip through both dictionaries |
| C135 | a connection used in a context | invariants over all interleavings of the body, the task and losses; progress |
| C136 | one name for a channel and a bit field | invariant over all orders of making channels and groups; universal negations |
| C64 | TFTP write between endpoint, client and adversarial network | invariant over arbitrary schedules; counterexamples |

## Where the code does not do what the property says

Each is a theorem (suffix `_fails`, most of them for all inputs of a class); the
property keeps the statement a user would expect, the proved restriction carries
`_partial` or states its hypothesis.

* C07: a scaling with one coefficient is not inverted; in doubles, raw values of 64-bit types beyond 2^53 do not survive scaling (`C07_wide_fails`), nor do raw values under offsets much larger than the slope (`C07_offset_fails`).
* C07: a scaling with one coefficient is not inverted.
* C09: a success between two polls is not reported.
* C11: a stand-alone bit-field may reach outside its primitive.
* C13: a refused allocation may keep its bits; flags may be registered twice.
* C15: non-zero padding and zero-width fields are lost by export and import.
* C16, C18: a refused load leaves an inconsistent mapping; a failed creation leaves its name bound.
* C19: boolean enumerations accept words that are no members.
* C20, C21: native order adds alignment; positions inside a repeated run are unknown.
* C24: a refused update of a prefixed chunk leaves the new prefix behind.
* C25: the prefix of a string counts characters, not bytes.
* C26: a chained instance is framed with its head only; changing the MTU drops pending samples.
* C28: the name of an array shows the fields added behind it.
* C29: a copy has identifier 1; a copy of a copy has no regular fields; repeated serializable
  names cannot be copied; fields behind an array serializable are doubled; array lengths of
  serializables are dropped; JSON refuses serializables and drops array lengths.
* C30, C31, C33: over-long messages are announced as empty; an abandoned or unstarted iteration
  loses or misreads data; an event cut inside its value stalls the parser.
* C32, C34: leaving by an exception leaks the callbacks; the first value may go unrecorded.
* C36: NaN, constant and non-linear scalings and some enumerations are not restored.
* C37: a name that is both a channel and a field is checked as one and set as the other.
* C38–C41, C64: block size zero; 2^16 blocks; stale blocks and a leftover block are accepted; error
  text comes back with its NUL; any file can be named; a lost or repeated write request corrupts.
* C42, C43: after a bad header every later request is refused; after an unreadable content length every later piece raises (`C42_length_fails`); line ends in values pass.
* C44: a command cut in two is lost; a restored 255 raises.
* C45–C47: two network ends take each other's requests for replies; a time-out leaks its entry; stray
  identifiers and loopbacks go on for ever.
* C48: `process` on a disabled or already processed connection leaves tasks; `initialized` is set after
  a failed initialisation; a forced write to the `enabled` channel breaks the event.
* C49: an interrupted send is lost, a raising send kills the writer of an enabled connection, two
  writers reorder.
* C50, C51: the channel `restart_attempts` publishes restarts; a restart goes on while enabled; the
  back-off uses exclusive-or, so it grows linearly and drops.
* C52: the manager may start a second task for a connection.
* C53, C54: a `False` result ends a task only without a stop signal; a disable during a dispatch is
  overwritten; a raising dispatch leaves the task un-restartable; limits above 255 wrap.
* C55, C56: exit codes cancel; one exception blames its whole stage; stages go unrecorded when the
  initialisation fails; a raising command leaves `join` waiting.
* C58: the empty key is unreachable and the error reply is ambiguous.
* C59: a reset leaves the message rate; a poll publishes kbps without the factor eight.
* C60, C61: a strict second finalisation succeeds in a bypass; negative moves and shrinking windows
  leave the screen.
* C62: a query is cut at a second question mark.
* C65, C66: a prompt before an echo, a reply cut in two, too many states and the index behind the
  last outlet derail or raise; after a time-out a command is answered from old replies; after a marked
  line with an unknown code every later marked line raises (`C65_noise_fails`).
* C67: the primitive of a group of fields is added once per field named.
* C68: scaling is not exported but scaled values are; a channel with an unknown enumeration stays;
  `add_field` claims no bits and returns a name that is not the registered one inside a namespace;
  every export adds the waiting groups of fields once more.
* C69: a change after the last frame before a tab is hidden is lost; a second `shown` leaks the first
  one's callbacks; an unnamed enumeration value raises in the writer and blocks every tab; a tab hidden
  before it was shown counts as up to date; NaN stays if the old value returns while hidden.
* C70: `//` and `..` serve any file; `/` serves the markdown file beside the first search directory; a
  markdown file shadows everything with its stem; encoded files raise; nothing under `/favicon` is
  reachable.
* C71: after a cancelled request every later response goes to the wrong request, or ends processing; so
  does a request of the peer meanwhile.
* C72: a raising handler leaves an enabled connection without reader; queued messages are dropped when a
  connection is disabled and the message being handled is interrupted.
* C73: a type keeps the elements its field types had when they were added; a type named like a primitive
  registers again and again and is never found; a global enumeration hides namespaced types; a refused
  enumeration keeps its name; an array length of zero counts as one.
* C74: names are checked only within a kind, so start-up raises after every registration was accepted; a
  connection or struct called `housekeeping` always prevents it.
* C75: a chunk that ends inside a value stops all later events; foreign text on standard error ends the
  task that services both pipes; output is lost before the queues exist, before environments are
  exchanged and after the task is cancelled; with only standard error queued, standard output raises.
* C76: a blank line ends a dispatch; a line written in parts is logged in parts; a file written anew is
  skipped up to the old position.
* C77: an unconnected UDP connection loses its remote address when restarted and counts what it does not
  send; a free local port changes; what waits in a replaced queue is lost; the late end of a replaced TCP
  transport disables the restarted connection; a connection disabled before it is processed leaves its
  transport open; the server's side raises at every restart.
* C78: a derived stepper polls itself without end; two steppers lose the time source; the time channel is
  one step behind; a raising struct cuts the iteration and the rest of the count.
* C79: a cut message is attributed to the sender of its last part; a stray prefix silences all peers; a
  raising handler ends the reader of an enabled connection; a message without an address goes nowhere on a
  socket that is not connected.
* C80: a datagram of another length ends the reader of an enabled connection; stray bytes that fit are
  samples; frames never leave a socket that is not connected; the MTU probe sends copies of one sample.
* C81: a refused configuration is not undone (C81_undone_fails); a client refused for its name stays open
  (C81_leak_fails); a second struct or peer class of one name is a TypeError (C81_clash_fails); a search package
  added to the front comes last (C81_front_fails); parameters never come from the constructor's configuration
  (C81_given_fails), are a KeyError before loading (C81_unloaded_fails), and an arbiter loads only once, even after
  a failure (C81_reload_fails).
* C82: a server that fails to start (C82_server_fails) or an initialisation that is cut short (C82_cut_fails) leaves
  the main coroutine waiting for ever, whatever happens next, the stop signal included; an application may be
  entered with a connection whose initialisation never succeeded (C82_restarted_fails).
* C83: names given to a search with the default pattern narrow nothing (C83_names_fails), so a connection cannot be
  had by name when another of its kind is managed (C83_single_fails) and a name may give another connection
  (C83_other_fails); a connection with two names is found twice (C83_twice_fails).
* C84: texts and binary messages have queues of their own, so one sent later may arrive earlier (C84_mixed_fails);
  a message refused by a closed protocol is counted as sent (C84_counted_fails), and texts count characters where TCP
  counts bytes; what is under way to a disabled connection is never read (C84_unread_fails).
* C85: a port variable in front of a path is not resolved (C85_path_fails), nor one behind a host in a server's
  arguments (C85_server_fails); two names may stand for one port (C85_shared_fails); a name given twice is written back
  with a port it does not stand for (C85_double_fails); the `server` command ignores the host for UDP (C85_host_fails)
  and gives a TLS server a loopback without TLS (C85_tls_fails).
* C86: when the connection that polls the UI struct leaves two or more others, none takes over and the struct stands
  still (C86_silent_fails); the 257th connection makes all poll (C86_wrap_fails); callbacks of closed connections stay
  (C86_leak_fails).
* C87: a custom command entered for the peer is run by the program it was entered at (`C87_custom_fails`); a line for the peer is answered with success whatever the peer makes of it (`C87_result_fails`); an argument that looks like a flag, given after `--`, is sent without the `--`, and with `-r` the command comes back and runs on the values of the sender (`C87_bounce_fails`).
* C88: a session that ends by an exception writes no metadata and leaves every recorded channel unusable for ever: each change raises and no later session can record it (`C88_exception_fails`); an environment known by two selected names makes the start fail (`C88_alias_fails`); a loaded environment reads only the default file name (`C88_path_fails`); bit-fields are not recorded (`C88_field_fails`).
* C89: when the host's loopback or metadata message is not answered in time, the program waits for ever for an environment (`C89_slow_fails`); the program's copy of the host's environment never changes (`C89_other_way_fails`); every `share_environment` after the first exchange raises `KeyError` (`C89_again_fails`).
* C90: two reads from one host at the same time: the first block of the first server is given to the second read and the first read gets nothing (`C90_same_host_fails`); the registration of a read that timed out is never removed and makes the next write by a client of that host fail (`C90_stale_fails`); after an answer from another port, a read answered from the address asked acknowledges to the old port (`C90_port_fails`); the error for an unknown opcode goes to the connection's remote address instead of the sender (`C90_unknown_fails`).
* C91: a reset button of a scaled channel sets the scaled value although the default is stored unscaled (`C91_scaled_reset_fails`); enumerated channels that are not boolean have no reset button, so set-defaults skips them (`C91_enum_reset_fails`); an entry named like another entry's number captures its option (`C91_numeric_name_fails`).
* C92: a text shorter than an earlier one leaves its end on the screen (`C92_stale_fails`); enumerated channels never show a value (`C92_enum_fails`); after a change of size the names are gone (`C92_resize_fails`); with more channels than rows the interface cannot start (`C92_overflow_fails`); a text wider than its place overwrites the next row (`C92_wide_fails`).
* C93: a cached page never shows what was added later (`C93_late_fails`); every application made by `create_app` composes under the name `main`, so a second one serves the first one's page (`C93_shared_fails`); tabs named `tabs`, `plot`, `splash`, or another's name with `-tab`, or twice the same name, get or take another element (`C93_reserved_fails`, `C93_plot_fails`, `C93_suffix_fails`, `C93_twice_fails`); of two names that agree up to a hyphen the first is never filtered (`C93_filter_fails`).
* C94: filters with a separator in them are restored by no hash (`C94_special_fails`, `C94_channel_filter_fails`), with a blank they come back encoded (`C94_encoded_fails`); a tab named like an option sets it (`C94_option_name_fails`); a hash that names a tab that is gone keeps the page from starting (`C94_gone_fails`); opening a window while the tabs are hidden makes the state say they are shown (`C94_window_fails`).
* C95: a change of capacity (scrolling, either way) loses the newest point of a buffer that is not full (`C95_resize_fails`), so scrolling empties it (`C95_wear_fails`); the newest value does not count for the scale of the plot, so a new extreme is drawn outside (`C95_spike_fails`); an unchanged value cannot be drawn at all (`C95_flat_fails`); a line made before its buffer may be shorter than it and then shows the oldest points only (`C95_short_fails`).
* C96: a channel switched on and off again before its tab is first shown (a hash that names it twice) is plotted although its box is not checked (`C96_stale_fails`); a fifth tab never plots anything, whatever happens to the other four (`C96_fifth_fails`).
* C97: one handler that raises (a remote command not answered in three seconds does) or one awaited connection task that is cancelled (its connection is disabled) ends the housekeeping task, and commands queued afterwards are never started (`C97_raise_fails`, `C97_cancel_fails`); while an awaited connection task runs, no queue that was empty is looked at (`C97_blocked_fails`).
* C98: a message with NaN or infinity in it is lost as a whole, and points are not filtered as `values()` is (`C98_nan_fails`); names of enumeration members that begin with digits are shown as floats (`C98_name_fails`); odd integers beyond 2^53 look like their neighbours (`C98_big_fails`); an update replaces what is being typed and enter then sends the update (`C98_input_fails`); values that come before the first frame of a tab shown again are marked stale at once (`C98_stale_fails`); negative integers get the space meant for missing minus signs (`C98_align_fails`).
* C99: a dispatch outlives `stop`, which returns while it goes on (`C99_shield_fails`); a task started again during its dispatches has any number of them going on at once (`C99_overlap_fails`); two calls of `task` at once leave a run that no call of `stop` stops (`C99_lost_fails`).
* C100: a half is kept as a float: peers see another value (`C100_half_fails`), values from 65520 are accepted and cannot be sent (`C100_half_range_fails`), rounding happens twice (`C100_twice_fails`); a float assigned the same number again calls its callbacks again and tells them a number it does not have (`C100_callbacks_fails`); changes to NaN are not told (`C100_nan_fails`); minus zero counts as true (`C100_zero_fails`); different doubles compare equal and equality is not transitive (`C100_equal_fails`, `C100_equal_transitive_fails`).
* C101: a task paused after a dispatch that took the period or longer does not sleep any more until it is resumed (`C101_spin_fails`): `iter_time` of the last dispatch is subtracted from every sleep; a dispatch that raises is counted nowhere (`C101_raising_fails`); a period made shorter during a dispatch hides an overrun (`C101_shortened_fails`).
* C102: steps of 0 and a flush count of 0 are accepted by commands and end their task for good (`C102_zero_fails`, `C102_flush_zero_fails`, with `C53_rerun_fails`); the wave jumps when the counter wraps unless the steps divide 2^32 (`C102_wrap_fails`); `cos` shows 0 before the first dispatch (`C102_first_fails`); a changing flush count can keep samples waiting up to the end of the counter (`C102_change_fails`).
* C103: a peer process whose pipe is closed before the exchange of environments waits for ever and has to be killed (`C103_early_fails`); a handler that raises leaves `got_eof` unset, so that a program waiting for it never ends (`C103_raise_fails`, `C103_stuck_fails`); `cleanup` is skipped when `main` or the heartbeat raised, or the first request timed out (`C103_cleanup_fails`, `C103_unanswered_fails`); a host kills a process that needs longer than one poll to work off its pipe, with what is left in it (`C103_killed_fails`).
* C104: an exception of `_main` or of a context leaves every server and the manager running (`C104_raise_fails`); one of a connection's `disable` leaves the stop signal unset and the connections after it enabled (`C104_disable_fails`); one of a cancelled task leaves the tasks after it running (`C104_cancel_fails`).
* C105: connecting to a host of several addresses is not retried when each refuses, because asyncio then raises a plain `OSError` if the texts differ (`C105_two_addresses_fails`); nor when a host cannot be reached (`C105_other_fails`); a back-off used up by one connection gives up the next one at once (`C105_used_fails`).
* C106: a handler that throws drops the messages that follow in the same websocket message and the answer (`C106_throw_fails`); a key named `__proto__`, `__defineGetter__` or `__defineSetter__` throws by itself (`C106_names_fails`), since the table of handlers is a plain object; nothing is kept between websocket messages (`C106_cut_fails`; the server never cuts one).
* C107: a loopback that the server sends without identifier is passed to and fro for ever (`C107_loopback_fails`); requests other than a loopback are answered with an empty message, so that `channel_command` to a browser raises `KeyError` (`C107_command_fails`).
* C108: a click on the track and the keyboard move a slider without sending anything (`C108_click_fails`); with whole bounds the upper one can be set only if the rounded step divides the range (`C108_top_fails`); the default of the canonical `steps` is no position of its slider (`C108_steps_fails`); positions closer than the fifth decimal place jump (`C108_fine_fails`); the settings slider takes the value of whatever lies under the pointer, 0 over a button (`C108_period_fails`).
* C109: an address with a period that is no number stops all frames (`C109_nan_fails`).
* C110: durations from a thousand seconds on stay in seconds (`C110_long_fails`); once the page is open for 10000 seconds its first line is longer than the padding and the lines no longer end at one edge (`C110_aligned_fails`); a fraction of a nanosecond may be rounded up to `1000.000 n` (`C110_carry_fails`).
* C111: the handler of a filter runs before the key takes effect and guesses its effect: names of keys such as `Shift` are appended to the pattern (`C111_named_fails`), a key in the middle of the text is applied at its end (`C111_caret_fails`), and a page reloaded while its filter is no expression yet never starts (`C111_reload_fails`); a link may hide the button of the tab it opens (`C111_link_fails`).
* C112: a page whose connection closes or fails before the worker is ready takes the recommendation to reload for the worker's answer and is stuck for good (`C112_stuck_fails`); a page served over https finds no port in the package's configuration (`C112_https_fails`); `data` anywhere in a server's name makes it the data server (`C112_data_fails`); a tab named `reload` reloads the page with every message (`C112_name_fails`).
* C113: a channel `x` with a channel `plot-x` before it: `#plot-x` finds the row of the other channel, so clearing leaves the box of `x` checked and the hash of the window does not restore it (`C113_clear_fails`).
* C114: `normalize_host(None, port)` drops the port (`C114_port_fails`); a name and a port always make an IPv4 host, so `tftp` cannot reach an IPv6 address (`C114_family_fails`); a plain tuple equals a host but has another hash (`C114_tuple_fails`); a size discovered once is never asked for again, also if it was only the fallback (`C114_stale_fails`); `host_discover_mtu` does not close its socket when `connect` or the probe fails (`C114_closed_fails`); the option against fragments stays set if it could not be read or the probe raised (`C114_option_fails`).
* C115: a channel named `log_messages` or `actions` that is not text makes the page raise on the values of its tab, so none of them is shown (`C115_values_fails`); the row of a channel `points`, `log_messages` or `handle_shown_state` gets data of the tab (`C115_rows_fails`); the value of a channel `log_message` is written to the log (`C115_logged_fails`).
* C116: a final poll that raises hides the reason why an application stopped (`C116_masked_fails`), and a struct with a final poll is polled although `init_env` raised (`C116_unbuilt_fails`); a source of integers raises at every poll (`C116_integer_fails`), and outputs added by `init_source` have no amplitude (`C116_extra_fails`); a channel `b.c` below `a` is the channel `c` below `a.b` (`C116_dots_fails`).
* C117: a prefix that is empty or ends with a slash stops the start (`C117_refused`), as do two spellings of one path (`C117_alias_fails`) and a second application in one process (`C117_second_fails`); a configured redirect of the index back to the prefix is followed for ever (`C117_loop_fails`); with the browser switched on a configuration without ports raises `KeyError` (`C117_ports_fails`).
* C118: `keyfile` without `certfile` is handed on to the socket, which knows no such argument (`C118_keyfile_fails`); `use_ssl: false` does not switch TLS off if an authority or certificate is named, even as `null` (`C118_off_fails`); a server asked for TLS without a certificate gets a context no client can use, silently (`C118_bare_fails`); the loopback client of the `server` command never uses TLS over TCP (`C118_loop_tcp_fails`).
* C119: tab names are put into the script as they are: a quote gives the tab another name (`C119_quote_fails`), a line break stops its script (`C119_break_fails`), an end tag cuts it (`C119_cut_fails`), a comment with a script tag swallows the rest of the page (`C119_swallows_fails`).
* C120: a channel may be named like an option, then commands do not reach it (`C120_option_fails`); with dots in names, channels of different namespaces collide (`C120_collision_fails`).
* C121: `flush_count` set to 0 raises `ZeroDivisionError` in the next round and ends the task for good (`C121_zero_fails`); the task queues every command and never takes one from the queue (`C121_queue_fails`); a task that stops leaves up to `min(n, L) - 1` samples unsent (`C121_exact`).
* C122: a websocket connection cannot restart (`restart` raises): with `auto_restart` set, once it is closed the manager starts tasks that end at once, without pause and without end (`C122_spin_fails`); if a handler of messages raises, a close by the peer is not noticed and the connection is kept (`C122_unnoticed_fails`).
* C123: `runtimepy tftp` ends with status 0 exactly if the transfer failed and with 1 if it succeeded, because the truth value of the transfer is the result of the command (`C123_tftp_fails`); an exception that escapes a command leaves a caller of `main` in the other directory (`C123_home_fails`); `SystemExit` without a code becomes status 1 (`C123_none_fails`); results of applications that are multiples of 256 are lost (`C123_arbiter_fails`).
* C124: with `--wait-for-stop` (and in every peer program) the application an arbiter was made with is not run if the configuration names none (`C124_own_fails`); the flag appends to the configuration's own list, once more with every load (`C124_config_fails`).
* C125: the divider loses the pointer once that goes past the end of its range (`C125_drift_fails`), moves twice as far as a finger if a second one touches it (`C125_double_fails`), and a mouse at position 0 raises, since 0 is taken for an event of touching (`C125_edge_fails`).
* C126: clicked again while the module is loaded, the button makes a second node, and the sound can be on after two clicks (`C126_toggle_fails`).
* C127: a default out of range is accepted and never the value (`C127_range_fails`); a refused default stays and makes every later `set_default()` and `update_primitive` fail (`C127_refused_fails`); the controls' default comes back after being cleared (`C127_cleared_fails`); a task with a whole number as period (`period_s: 2`, allowed by the schema) gets an integer default for a float channel, so its exported environment cannot be loaded (`C127_whole_period_fails`).
* C128: `getattr(other, "id", other["id"])` evaluates `other["id"]` first, so comparing two items raises `TypeError`, also an item with itself (`C128_items_fails`); sets of items work only because an object is found by identity.
* C129: a channel made by `channel` is in none of the sets, so `get_int`, `get_bool`, `get_float` and all that use them refuse it until the environment is exported and loaded (`C129_plain_fails`); a creation refused for its type or for a missing enumeration leaves the channel behind, and the name cannot be created any more (`C129_refused_fails`).
* C130: with a falling scaling a wait for a bound ends on the wrong side of it (`C130_falling_fails`); an integer channel is compared with the nearest raw value, so equality is reported for another value and a strict comparison missed (`C130_nearest_fails`); a slope of 0 or three terms raise (`C130_raises_fails`); a single term is taken for an offset (`C130_one_term_fails`); the value of an enumeration is un-scaled before it is waited for (`C130_enum_scaled_fails`).
* C131: the path of the configuration is protected, the name is not: a quote in a name ends the literal and the rest is run as code (`C131_quote_fails`), backslashes change the name or take the closing quote (`C131_backslash_fails`), a line end makes the script unreadable (`C131_line_fails`).
* C132: a callback registered after one that corrects the value is told of the correction first and of the corrected value last, so what it keeps is not what the primitive holds (`C132_later_fails`, `C132_stale_fails`); a callback that raises, registers or removes one makes the assignment raise after the value has changed, the callbacks behind it are not told and those for one time stay (`C132_raises_fails`, `C132_adds_fails`, `C132_removes_fails`).
* C133: a task that cannot be started again (an exception of its last run or of `stop_extra`) keeps `running` from its body and leaves the others started and never stopped (`C133_start_fails`).
* C134: `normalize` does not find members with a small letter in their name (`C134_small_fails`); the runtime enumeration does not know aliases (`C134_alias_fails`) and loses the first of two members whose names differ in case only (`C134_case_fails`). The classes of the project have names in upper case and no aliases.
* C135: a body that ends before the task of `process` has run, or while the connection is being restarted, has the connection restarted after it and the context never left (`C135_early_fails`, `C135_restarting_fails`), or raises what `restart` raises (`C135_raises_fails`).
* C136: a name can belong to a channel and to a bit field at once: `set` and `value` then mean the field, `field_or_channel` the channel (`C136_field_hides_fails`, `C136_channel_hides_fails`); a second field of a name without enumeration takes its texts from the first one's (`C136_stale_fails`).
