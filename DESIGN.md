# Formal model of sonirico/visigoth in Lean 4

Source (read only): `/repo` (Go).  Model, specifications and proofs: `/verif/lean`.

## Layout

* `Verif/Model/*`  model of the code, function by function; each definition cites file and lines.
* `Verif/Spec/*`   small independent specifications used in the theorem statements.
* `Verif/Proofs/*` helper lemmas and invariants.
* `Verif/Props/*`  the property theorems, named `Cnn_…`, with concrete non-trivial examples beside them.
* `Verif/Props/Suite.lean` the package's own Go test suite, every case evaluated on the model (a check of the
  model, not a proof).
* `MANIFEST.json`  which theorems settle which property.
* `AXIOMS.md`      `#print axioms` for every one of them.
* `seeded/LOG.jsonl` wrong programs (edited model definitions) and the theorems that fail on them.

A property that is false of the code has a `…_refuted` theorem (a concrete execution, or the negation of
the full statement) and a theorem ending in `_partial` that proves the claim under an exact guard; its
status is `partial`.

## What is modelled

| Go source | Lean | Remarks |
|---|---|---|
| `analyze_*.go` | `Model/Analyze.lean`, `Model/StopWordsTable.lean` | all functions; stop word table transcribed in full |
| `entities_*.go` | `Model/Entities.lean`, `Model/Request.lean` (requests made outside the package) | all functions |
| `index_memory_index.go` | `Model/Index.lean` (values), `Model/IndexHeap.lean` (slices with shared backing arrays), `Model/Bare.lean` (called directly by several goroutines), `Model/PutCost.lean` (`Put` with its iterations counted), `Model/Save.lean` (saved as JSON and loaded), `Model/OpenIndex.lean` (with its tokenizer, nil values and assignments to exported fields), `Model/Copies.lean` (index variables that share slices and maps) | all functions |
| `search_hits_search.go`, `search_linear_search.go`, `search_noop_search.go`, `search_result.go`, `search_search.go` | `Model/Search.lean`; `Model/Ask.lean` (the engines with their calls on the index recorded) | all engines, `intersection`, `Less` |
| `search_result_easyjson.go` | `Model/Json.lean` (tokens), `Model/JsonText.lean` (bytes), `Model/JsonEasy.lean` (inside larger texts) | generated encoder and decoder; strings, numbers and white space as easyjson writes and reads them |
| `stemmer_spanish_snowball.go` | `Model/Stemmer.lean` | `R1R2RV`, `isVowel`, `Stem` |
| `repos_repo.go` | `Model/Prog.lean`, `Model/Repo.lean` (programs over atomic actions), `Model/Conc.lean` (interleaving), `Model/Goroutines.lean` (goroutines inside one call), `Model/Fine.lean` (goroutines of all calls interleaved), `Model/Reenter.lean` (engines and tokenizers that call the repository), `Model/UserPanic.lean` (builders and tokenizers that panic) | all methods of the `Repo` interface, `String`, `getIndices`, `NewIndexRepo` |

Not modelled: the accessors `Mime` and `Statement` of `DocRequest` (they are its fields),
the `EngineType` constants (unused in the package), test files, the Makefile.

## How things are modelled

* **Go strings and `[]byte`** are `List UInt8`.  `range` over a string uses a model of Go's UTF-8 decoder
  (an invalid byte is U+FFFD of width 1).  String `<` is lexicographic on bytes.
* **Unicode tables** (`unicode.IsLetter`, `IsNumber`, `ToLower`) and the **Snowball library** are
  arbitrary functions; hypotheses on them are written in the theorems that need them.
* **Go maps** are association lists with unique keys (an invariant, proved).  Iteration order is a choice of
  the runtime: an oracle that may return any permutation.
* **`int`** is `Nat` (positions, hit counts: no overflow; C102 says when hit counts of `w` bits are the same),
  in JSON `Int`; **`uint64`** of FNV is `UInt64`.
* **`sort.Sort`** is any function that returns a sorted permutation (`SortContract`); `Model/Sort.lean` has
  `Len`, `Less`, `Swap` and algorithms that may use nothing else (C67).
* **Recovered panics**: `Model/Recover.lean` adds the unwinding of a panicked `Search` (its deferred
  `RUnlock`); `Model/UserPanic.lean` has builders and
  tokenizers that panic; everywhere else a panicked call stays as it is, with its locks.
* **`slices.Copy`** of vago returns a fresh copy with the same elements; whether the copy of nil is nil is
  left open (`CopyFn`).  `append` writes in place when the capacity allows; the capacity of new arrays is a
  choice of the runtime.
* **`IndexRepo` methods** are written once, as programs in a free monad over atomic actions (mutex
  operations, map reads and writes, element reads and writes through a heap of backing arrays, index
  updates).  `run` executes one call alone (value, hang or crash); `Model/Conc.lean` interleaves any number of
  calls, one atomic action at a time.
* **`sync.RWMutex`**: readers and at most one writer; a writer first announces itself, which keeps new
  readers and writers out, then waits for the active readers.  Holders are recorded (ghost).
* **nil, panics, deadlocks** are explicit outcomes.  `Put` through an alias that lists an index twice is
  the outcome `race` (two unsynchronised goroutines write one index).
* **JSON**: `jlexer.Lexer` and `jwriter.Writer` of easyjson are not in the repository; nor is their source in
  the sandbox: they are modelled from knowledge of the published sources.  `Model/Json.lean` has separators,
  key dispatch, null handling, unknown fields and error propagation, over tokens; `Model/JsonText.lean` has escaping, UTF-8, numbers and white space.  A text is
  split into tokens before it is decoded; texts with a lexical error are not modelled.  `json.Valid`, called
  on skipped values, is any function that accepts JSON (C72: and nothing else).

## Simplifications

* Memory is sequentially consistent.  Adequate for race-free executions; C51 proves which executions race, and C98 that in the others all
  conflicting accesses are ordered by happens-before, which is what Go's memory model asks for.
* The goroutines started by one `Put` or `Search` are run one after the other in `Model/Repo.lean`, in an
  order chosen by the runtime.  `Props/Goroutines.lean` interleaves them action by action, with arbitrary
  interference elsewhere, and proves the same results (C41, C43); `Model/Fine.lean` interleaves the
  goroutines of all concurrent calls, and C60 proves that exactly the same outcomes are possible.
* After a panic the other calls go on (in Go the process ends): the model has more executions than Go.
* The data-race theorem (C51) works with the locations: index table, alias table, backing arrays of alias
  slices, index objects.  Reads that a caller makes through rows returned by `ListAliases` are not counted
  there but in C95, cell by cell.
* In C59 and C91, with `Rename` among the calls, the contents of rows returned by `ListAliases` are not compared, only the
  alias names (`Rename` rewrites them afterwards, C47); without `Rename` they are compared.
* Stop-word maps and filter slices do not change, except in `Model/AnalyzeMem.lean` (C86), where they change between
  calls of `Tokenize`.
* The tokenizer and the engines are pure functions.  Only in `Model/Reenter.lean` (C80) they call the
  repository; there they make their calls before they compute, and the goroutines of one call run one after
  the other.
* In `Model/Bare.lean` (C82) `Docs` and the posting lists are values: `append` is a read of the whole slice and
  later a write of the whole slice.
* `Model/PutCost.lean` (C89) counts the iterations of the inner loop of `Put` only: not the work of the tokenizer,
  of the map and of `append`.
* In `Model/LinearMem.lean` (C84) `slices.Copy` allocates exactly the elements it copies; the slice of results is
  not counted.
* In `Model/AnyIndex.lean` (C101) a call of `Put` or `Search` of an index of the caller's own is one atomic step
  (C101_exclusive says which of them overlap), and `Search` does not change the index.
* In `Model/Save.lean` (C105) `encoding/json`, which is not in the repository, is modelled by what a decoder gets from
  the encoder's text: slices are replaced, map entries are merged in the order written, and each malformed byte of a
  string is U+FFFD.  The text itself is not modelled.
* In `Model/OpenIndex.lean` (C107) positions that a user assigns are not negative, and slices are values.
* `String` renders an index in one atomic step (it holds the read lock); of package `fmt` only `%s`, `%d` of
  non-negative numbers and `%v` of `[]int` are modelled.

## Per property

| Id | Property | Status | What is modelled, how it is proved |
|---|---|---|---|
| C01 | Tokens are the maximal runs of kept characters | proved | `FieldsFunc` over the byte decoder; proved equal to a declarative decomposition into maximal runs. |
| C02 | Tokenization loses only separators | proved | Same model; the decoder covers the text, the concatenation of tokens is the text without separators. |
| C03 | Several keep-predicates act as a union | proved | Loop over registered predicates equals their disjunction. |
| C04 | A pipeline applies its filters left to right and nests | proved | Pipelines as folds; algebraic laws. |
| C05 | The lower-case filter maps tokens one to one | proved | `strings.ToLower` including the ASCII fast path; case table arbitrary. |
| C06 | The stop-word filter removes exactly the stop words | proved | Filter loop equals a list filter; multiplicity and order. |
| C07 | The stemmer filter never removes a token | proved | The stemmer is arbitrary; one output per token. |
| C08 | Searching is insensitive to ASCII letter case | proved | Congruence through tokenizer, index and engine. |
| C09 | Every listed Spanish stop word takes effect | proved | Whole table evaluated by the kernel, lifted to all inputs. |
| C10 | Put appends exactly one document and never disturbs earlier ones | proved | Induction over the history of Puts; in a repository, every index object is the result of such a history (invariant over all executions). |
| C11 | The inverted index is exact | proved | Invariant of the inverted index over all histories; carried over to every index of a repository, also under concurrent calls and interleaved goroutines. |
| C12 | Callers cannot corrupt an index through Indexed | proved | Heap model of slices, arbitrary client actions, ownership invariant on backing arrays. |
| C13 | Putting an existing ID adds a second document | proved | From C10 and C15. |
| C14 | The statement is indexed, the content is returned | proved | Documents and postings as separate functions of the history. For whole repositories: histories related call by call give related specification states (C30), so related answers; engines are shown blind to contents, `sort.Sort` because it sees only Len, Less and Swap. |
| C15 | LinearSearch returns exactly the documents containing all query tokens | proved | Engine equals a filter of the history. |
| C16 | HitsSearch returns exactly the documents containing all query tokens | partial | Phase 1 and 2 as exact accumulation. False for indexes with repeated or colliding IDs (two refutations); proved when ID hashes are distinct. The exact guards are proved as equivalences: for one query, documents sharing a hash must together contain fewer tokens than the query; for all queries, documents sharing a hash must have no tokens. |
| C17 | HitsSearch exact behaviour on any index | proved | Exact result for every history including collisions. |
| C18 | Both engines find the same documents | partial | From C15 and C16. False for repeated or colliding IDs; proved when ID hashes are distinct. Exact guards proved as equivalences (as for C16). |
| C19 | HitsSearch output does not depend on the sorting algorithm | proved | Sorted permutations of a list with antisymmetric order are equal; `CopyFn` arbitrary. |
| C20 | HitsSearch result order | proved | From the sort contract. The order (Hits descending, then ID ascending) is proved; the documented tie-break by document order is refuted. |
| C21 | Less is a strict weak order | proved | Order laws for all results. |
| C22 | Hits equals the number of query tokens | proved | From C15, C17; the order from C21 and the contract of sort.Sort. Proved for LinearSearch for all indexes and for HitsSearch, as the claim says, with distinct ID hashes, with the order of the results. Beyond the claim: without distinct hashes it is refuted for HitsSearch, with the lower bound proved; exact guards proved as equivalences; for all queries: documents sharing a hash have no token in common. |
| C23 | Query word order does not matter | partial | From C15, C17. Proved for LinearSearch; HitsSearch needs distinct ID hashes (refuted otherwise). Exact guard proved as an equivalence: per hash the first document containing a token is the same for all tokens. |
| C24 | Adding query tokens only narrows the result | partial | From C15, C17. Proved for LinearSearch; HitsSearch needs distinct ID hashes (refuted otherwise). Exact guard proved as an equivalence. |
| C25 | Adding documents never loses a match | partial | From C15, C17. Proved for LinearSearch; HitsSearch needs distinct ID hashes (refuted otherwise). Exact guard proved as an equivalence. |
| C26 | Unknown tokens, empty queries and no-op engines | proved | Direct. Proved. Beyond the claim: without distinct ID hashes the unknown-token part is refuted for HitsSearch; exact guard proved as an equivalence: documents sharing a hash have no token in common. |
| C27 | No engine panics on a real index | proved | From C11: postings are in range. |
| C28 | intersection computes the set intersection of sorted lists | proved | Merge loop against set intersection; wrong on unsorted input (witness). |
| C29 | IDs differing in exactly one byte never collide; collisions exist | proved | Multiplication by an odd constant is injective mod 2^64; a concrete collision is evaluated by the kernel. |
| C30 | The repository behaves like a map of document lists plus a map of aliases | proved | Refinement of `run` to an abstract state (documents per name, aliases, leaked locks), for every state and every runtime choice; exact conditions for hanging and crashing. |
| C31 | List, Has, ListAliases and HasAlias agree | proved | Refinement. |
| C32 | Alias contract | proved | Refinement. |
| C33 | UnAlias contract | proved | Refinement. |
| C34 | A failed UnAlias leaves the repository usable | partial | Refinement with leaked locks. False: a false return with a non-empty index always leaks a lock (C34_false_always_leaks), after which calls hang (C34_refuted, C34_leaked_*_blocks). Proved for index = "". Exact guard proved as an equivalence (C34_guard_exact). |
| C35 | Rename moves the index and every alias entry | proved | Refinement. |
| C36 | Rename never destroys documents | partial | Refinement. False for Rename onto an existing index or onto itself; proved when the new name is free. The number of indices is kept exactly when the new name is free (C36_count_exact). Exact for the searches: when the new name is taken, the contents are kept only if another index looks the same to every search as the one that had it (C36_guard_exact). |
| C37 | Drop removes the index and every reference to it | proved | Refinement. |
| C38 | Aliases never dangle | partial | Invariant over histories. False after Rename(x,x); proved for every history without such a Rename. Exact: a call leaves a dangling alias iff it renames an existing aliased index to itself (C38_guard_exact, C38_dangling_needs_self_rename). |
| C39 | Alias entries are distinct | partial | Invariant over histories. False after Rename onto an existing index of the same alias; proved for guarded histories. Exact: a call makes an entry appear twice iff it renames an existing index onto another entry of the same alias (C39_guard_exact, C39_repetition_needs_merge). |
| C40 | Name resolution | proved | Refinement. |
| C41 | Searching an alias merges the per-index results | proved | Refinement for any completion order; goroutines interleaved action by action with a private mutex. |
| C42 | Repeated alias searches return the same list | partial | Refinement. False for aliases with several indices (goroutine order); proved when the name resolves to at most one index, and up to permutation in general. Exact: the result is unique iff the contributions of any two listed indices commute (C42_guard_exact). |
| C43 | Put through an alias reaches every listed index once | proved | Refinement; goroutines interleaved action by action, any interference elsewhere. |
| C44 | Put is never silently discarded | partial | Refinement. False for an alias that lists no index; proved in all other cases. Exact guard proved as an equivalence (C44_guard_exact). |
| C45 | Indices are isolated | proved | Refinement. |
| C46 | Reads do not change the repository | proved | Refinement. |
| C47 | A ListAliases result is a stable snapshot | partial | Backing arrays of alias slices are explicit. Concurrent executions: an invariant on the backing arrays (who writes where, under which mutex) and on the table a ListAliases is reading. With interleaved goroutines, between any two looks: carried over through the simulation at both points (Props/FineRest.lean). False: Rename writes into slices already returned; proved for histories without Rename. Exact: the next call changes a row iff it renames an existing index listed in it to another name (C47_guard_exact); later renames rewrite it iff an alias still uses its array (C47_rename_rewrites). With any number of calls at once: the rows are the alias table of one moment of the call, and their entries change only by calls of Rename that have been under way since (C47_moment, C47_rows_follow_renames); while one is under way the rows may be half renamed (C47_torn). |
| C48 | Searches never see a half-applied Put | proved | Invariant of the interleaving semantics: a view of every index as a whole number of Puts, updated at the end of a Put. |
| C49 | No deadlock unless a lock was leaked | proved | Lock-ownership judgement on residual programs; progress for every configuration without leaked locks; termination measure. |
| C50 | A leaked lock blocks writers forever in every schedule | proved | Stability of leaked locks in the interleaving semantics. With interleaved goroutines: the same facts carried over through the simulation, which keeps locks, operations and statuses (Props/FineRest.lean). |
| C51 | Shared data is race free | partial | Lock-ownership judgement; conflicting enabled actions are impossible except Rename with UnAlias. Executions restricted to a set of methods are race free exactly if the set lacks one of Put, Rename, UnAlias. The same for each tokenizer and builder, not only for all of them: a first Put is followed for an arbitrary tokenizer (Proofs/AnyCfg.lean), the schedules from there do not depend on it (Props/EveryConfig.lean). False: Rename uses the alias table without its mutex and races with UnAlias (C51_refuted); proved that this is the only race, and that a set of methods can be used without races exactly if it lacks Put, Rename or UnAlias (C51_methods_exact). |
| C52 | Concurrent Puts are never lost | partial | Atomicity refuted by a concrete schedule; what survives is a direct invariant on interleavings (Proofs/Keep.lean, KeepInv.lean): every document put stays in its index object, and names keep leading to it. Calls already running are covered by an invariant that holds from the start of the execution (Proofs/KeepPre.lean). A Put that creates the index is followed up to the creation, where that invariant begins (Proofs/KeepNew.lean). C52_lost_to follows the names a Put resolved (Proofs/Reach.lean): a name stops leading to the index only by a step of another call, and if that call is a Put its own invariant shows what it had found. False for each tokenizer and builder (Props/EveryRefuted.lean). False: two Puts that both find no index create it twice and one document is lost (C52_refuted, using Put calls only); proved for every execution, goroutines interleaved, from any point at which the index exists and no running call puts to the name, drops or renames it, as long as it is not dropped or renamed; and for a Put that creates the index, if it overlaps no other call that binds or unbinds its name and the name is no alias (C52_lone_put_kept_partial). C52_lost_to says for every execution how a document can get out of reach: its name was dropped or renamed, or taken by a Put that had looked the name up while it stood for nothing. |
| C53 | Drop is atomic | partial | Phases of Drop, with the step that took the index away recorded (Proofs/Removed.lean); invariants over executions. False for each tokenizer and builder (Props/EveryRefuted.lean). False: two overlapping Drops both return true (C53_refuted), a Drop returns true while Rename moves the index away (C53_refuted_by_rename); proved of every execution: while a Drop that returns true was running, it or an overlapping Drop or Rename took the index away (C53_somebody_removed), so it removed the index itself if no overlapping call did; and of two Drops that do not overlap only one returns true. |
| C54 | No crash in any schedule without Rename | proved | Invariants over executions; a typing judgement for slice accesses shows that none is out of range, whatever the schedule. |
| C55 | R1 and R2 are the Snowball regions | proved | Loops against a declarative region definition. |
| C56 | RV is the documented region | partial | Loops against the documented region. False as stated (C56_rv_refuted: "crear"); proved when R1 is non-empty, with the exact result for every word (C56_rv_exact) and exactness of the guard (C56_guard_exact). |
| C57 | SearchResult JSON round-trips | proved | Generated code over the lexer/writer model. |
| C58 | SearchResult JSON decoding tolerates order, unknown and null fields | proved | Decoder on arbitrary member lists. |
| C59 | Concurrent calls take effect in at most two atomic steps | proved | Simulation of the interleaving semantics by an atomic specification (each call at most two steps), in real-time order; from the empty repository and from any state at rest, whatever was called before (an invariant of all executions: no two names share an index). From a state at rest with interleaved goroutines: several points of an execution are matched, in order, by points of an execution of atomic steps (Props/FineRest.lean). |
| C60 | Interleaving the goroutines of Put and Search changes nothing | proved | Simulations in both directions between the semantics with interleaved goroutines and the one without; completion orders chosen late. Whole executions: any number of points are matched in order, which carries C48, C49, C50, C52, C53, C54 and C59 over (Props/FineMore.lean). |
| C61 | Goroutines of Put and Search never race | proved | Lock ownership carried over by the simulation; distinct indices per goroutine; the private mutex of Search. The same for each tokenizer and builder, not only for all of them: a first Put is followed for an arbitrary tokenizer (Proofs/AnyCfg.lean), the schedules from there do not depend on it (Props/EveryConfig.lean). |
| C62 | Calls with goroutines neither deadlock nor run forever | proved | Progress carried over by the simulation; well-founded order on calls with goroutines. |
| C63 | The text of an index shows exactly its contents | proved | Independent grammar of the text (decimal numbers, lists, entries); the model's output is shown to satisfy it for every iteration order. |
| C64 | The text of the repository shows every index once | proved | Refinement of the sequential specification; for concurrent calls the whole-Put invariant of C48. For interleaved goroutines by the simulation of C60. |
| C65 | Every index is shown under its own name | partial | Refuted by Rename; invariant (every concurrent execution): a name nobody renamed to is bound to an object made under that name. False: Rename leaves MemoryIndex.name unchanged, so String prints the old name (C65_refuted). Proved under the guard that no call renamed an index to that name, for one caller and for all interleavings. Exact: an index is shown under the name it was first put under, which the calls determine, so under its own name iff the two agree (C65_guard_exact). |
| C66 | The specification of the repository is exact | proved | Converse of the refinement: for each allowed return value an explicit choice of map orders and schedule that produces it; uniqueness of decimal representations for the text. |
| C67 | Sorting search results in place | proved | Sorting algorithms as programs that may only call Less and Swap (free monad); induction over the program; insertion sort written in it and proved to sort. |
| C68 | A recovered panic of Search leaves no trace | proved | Executions extended by an unwinding step (the deferred RUnlock); an invariant says which locks a panicked Search holds; a reading call at any stage can be taken out of an execution, by commuting its steps with all others. Every panic of Search can be unwound, since none is a misused lock (never_invalid). |
| C69 | What the engines ask of an index | proved | The engines written again in a monad that records calls on the index and iterations of `intersection`; same results as the plain ones for every index; induction over the loops gives the trace. |
| C70 | Documented cost of HitsSearch | partial | Exact step count T + P + 2N + 1 (P pairs of query token and document containing it, N documents); time and space refuted for every constant; partial: all documents contain a query token; one-token queries with distinct hashes. False: phase 2 visits every document of the index, so no constant works for the time, and the table has an entry for every document containing some query token, so none works for the space (both refuted for every constant). Exact step count and exact table proved; the bounds are proved when every document contains a query token (time) and for one-token queries with distinct hashes (space). |
| C71 | Documented cost and early termination of LinearSearch | proved | Trace of C69; `intersection` by induction on its fuel; exact condition for the next token to be asked for. After the first token the search stops only if Indexed returned nil, which the repository's code leaves to vago slices.Copy; from the second token on the condition is exact. |
| C72 | UnmarshalJSON accepts exactly JSON | proved | Inversion of the decoder loops: each successful run reads the text of some member list; with C58 for the value. Token level; json.Valid of the standard library, which decides about skipped values, is assumed to accept exactly JSON. |
| C73 | A failed UnmarshalJSON leaves the receiver unchanged | partial | Refuted by one text for every json.Valid; partial: induction over the decoder loops with the tokens still to come as invariant; exact: every text is a run of good fields followed by a torn one or none, and both loops are followed along it. False: fields before the error have been stored, and a field of the wrong type is overwritten with zero (refuted for every json.Valid). Proved: what is left behind exactly, for every token sequence and receiver (C73_left_exactly, with C73_fields_exist giving the fields of every text), the exact condition on a text under which the receiver is kept (C73_guard_exact), and that what the text does not name is kept. |
| C74 | SearchResult JSON round-trips as text | partial | Byte-level model of the string and number writer and of the lexer; the writer produces one of the texts of the specification (Spec/JsonText.lean), the lexer reads all of them. False for IDs or contents that are not UTF-8: easyjson replaces each bad byte by U+FFFD (C74_refuted), so different IDs can become equal (C74_ids_collapse). Exact result for every value (C74_text_round_trip); the round trip is exact iff both strings are UTF-8 (C74_guard_exact). The text written is UTF-8 without control characters (C74_output). Hits in the range of int. |
| C75 | The way a JSON text is written does not matter | proved | The lexer reads every text of the specification as the tokens it stands for; with C58. For texts without lexical errors; the lexer of easyjson is modelled from its source, it is not in the repository. |
| C76 | From texts to results | proved | Words are defined on the characters of the text, without a tokenizer; the tokens of the pipeline are shown to be the terms, then composed with C15, C16, C30 and C40. The README program is run for arbitrary tables and stemmers. Snowball and the unicode tables are parameters; assumed of them is only CaseTable (and, for the README program, the class of the letters it uses). |
| C77 | What is put into an index stays in it | proved | Growth is checked action by action. The way of a Put is followed with a record of the repository at the moment the name was resolved (both read locks exclude writers) and of the positions written (Proofs/Reach.lean). With interleaved goroutines: directly from the fact that objects only grow, and, while nobody writes, because the heap is that of the simulating execution (Props/FineRest.lean). All executions of the interleaving model, Rename and UnAlias included; that objects only grow also with interleaved goroutines. |
| C78 | Callers cannot change the aliases through the rows of ListAliases | partial | Callers' writes and appends are the actions slWrite and slAppend; their effect on the abstraction is computed (Proofs/Rows.lean). Slices stored by calls other than Alias are over new arrays, so nothing behind an old row is in use. False of the code: ListAliases returns the slices of the alias table themselves (C78_write_refuted, C78_append_refuted). Exactly what a write or an append changes is C78_write_exact and C78_append_exact; appending is harmless while Alias has not been called (C78_append_harmless_partial). |
| C79 | Which methods can be used together | proved | Unsafe sets: one schedule each, computed. Safe sets: without Put both tables stay empty, without Alias the alias table does (a program judgement, Proofs/Mute.lean); with neither Put nor Rename nobody writes the index map, so read locks left by UnAlias block nobody; the other cases are C49, C54, C47 and C65. The same for each tokenizer and builder, not only for all of them: a first Put is followed for an arbitrary tokenizer (Proofs/AnyCfg.lean), the schedules from there do not depend on it (Props/EveryConfig.lean). Rows and labels are carried over to interleaved goroutines in both directions by the simulation (Props/EveryRows.lean). |
| C80 | Engines and tokenizers may call the repository | partial | Engines and tokenizers are programs that make calls (Model/Reenter.lean). The lock discipline is proved for them with the locks of the outer call held, as long as the calls leave the index mutex alone; for every other call a deadlock is constructed, for every configuration. False of the code: the index mutex is held while the engine and the tokenizer run (C80_refuted). No deadlock if the calls leave it alone (C80_no_deadlock_partial), and only then (C80_calls_exact). One caller: C80_alone_hangs_exact, C80_alone_put_hangs, C80_alone_returns. |
| C81 | Search results inside larger JSON | proved | The encoders append to a writer; the decoder runs on a lexer in the middle of a text. The loop lemmas of C58 hold for any rest of the text. The slice code, which easyjson would generate elsewhere, is modelled as the caller. |
| C82 | An index may be called from several goroutines at once | partial | Model/Bare.lean interleaves calls on one index, one memory access at a time, the engines being programs over Len, Indexed and Document. Refuted by concrete schedules; the overlap theorems construct the rest of the schedule. Proofs/Bare.lean: an invariant that a Put under way is the last call and its stage determines the index, while a search under way sees the index unchanged. False: two overlapping Puts lose a document (C82_refuted), leave an index on which a later search panics (C82_search_panics_later), and a search sees a Put half done (C82_half_put_seen); in general, whenever two Puts overlap from the start a document can get lost (C82_overlap_loses), and a Put before its assignment of Docs can race with any call about to access Docs (C82_overlap_races). Proved of every execution in which no Put overlaps another call. |
| C83 | The package's own stemmer is unfinished | proved | By definition. The function is a stub; the filter calls the snowball library instead (C07). |
| C84 | Documented space of LinearSearch | partial | Slices as backing arrays; `intersectionM` equals `intersection` by induction on its fuel with the room left as invariant; then along the prefix of tokens asked for (C71). False for every constant (C84_space_refuted); exact count in C84_cells_exact. Partial: O(I) where the query tokens occur only together; missing: queries with tokens that also occur apart. That slices.Copy allocates exactly what it copies is assumed. |
| C85 | The Snowball regions are views of the word | proved | `R1R2RV` on slices, equal to the model on byte lists; offsets found are offsets of characters, so in range. Byte slices with backing array, offset, length and capacity; contents proved equal to those of C55 and C56. |
| C86 | Analyzers are fixed when they are built | partial | Maps and filter slices as memory read at each call. Histories with changing tokenizers are encoded as one tokenizer on numbered statements, so C15 applies; sublist monotonicity of the filters for added words. C86_slice: what a pipeline made with NewTokenizationPipeline(t, filters...) becomes when an element of the array of filters is assigned to. Refuted for words added, words removed and filters replaced (C86_refuted, C86_lost). Partial: memory the tokenizer reads is left alone; missing: tokenizers whose memory is changed, for which C86_mixed says exactly what LinearSearch finds. |
| C87 | No call waits forever | proved | A call takes finitely many steps, so it comes to rest; a call at rest that is not over waits for a mutex, whose holder is at rest too at some point; the mutexes are taken in order, so this ends in a contradiction with fairness. Stated for histories of locks and applied to both granularities. C87_methods_exact: without Put and Rename nobody writes under the index mutex, so read locks kept by UnAlias harm nobody (the argument on histories of locks allows that); the unsafe sets are those of C79, continued by rest. Fairness is a hypothesis (Spec/Fair.lean); an endless fair history with endless calls is given as an example. C87_leak_starves shows that the condition on leaked locks is needed. |
| C88 | Size of an index | proved | Counting over the history of Put: the token loop adds a position exactly for the tokens that do not have the new one yet, once each; the keys are the tokens read. Counts documents, map entries and positions; capacities of slices and the memory of strings are not counted. |
| C89 | Cost of Put | partial | `Put` with a counter for the iterations of its inner loop (`Model/PutCost.lean`), proved to build the same index; exact count, refutation of the linear bound for every constant, quadratic lower bound, sum of squares. False for every constant (C89_refuted); exact count in C89_put_cost and C89_build_cost. Partial: bounded document frequencies; missing: tokens shared by arbitrarily many documents, for which C89_at_least shows the claim false. |
| C90 | Names do not depend on documents | proved | A simulation between executions with different contents of the indices: programs are related if they make the same actions on names and locks (`Proofs/Twins.lean`); the goroutine version follows with C60. Engines that panic are excluded (an example shows that a panic leaves a lock behind). A call still running may be further ahead in the other execution. |
| C91 | Every call takes effect at one moment | partial | Specification in which a call is one step of the sequential specification; simulation through the two-step specification of C59: the second step of a call finds what the first one found. Refutations: played schedules, and all orders of the calls excluded one by one. False, and with the same exact sets of methods, for each tokenizer and builder (Props/EveryRefuted.lean). With interleaved goroutines the points of an execution are matched by the simulation, and a configuration at rest can be taken up by the converse simulation; the same sets of methods result (Props/FineLinear.lean). False of the code in five ways, each refuted from a state at rest by a small set of calls: Puts of a new name; Drops of one index; a Rename with Puts of existing indices; an Alias with Puts of that alias; an UnAlias with a Rename of its index. As to sets of methods the answer is exact (C91_methods_exact): no Put, no Drop, and not both Rename and UnAlias. Proved, step by step, when Puts name existing indices or aliases that no call changes and there is no Drop and no Rename (from every state at rest, whatever was called before), and for Alias, Rename and the reading methods alone. Without Rename the rows of ListAliases are compared with their contents, with Rename by alias name only. |
| C92 | When all calls have returned, one caller can go on | proved | Invariants of all concurrent executions (C48, C52, C54, C56 and the lock invariants) put together when no call is running; a call alone is run by the sequential semantics, step by step; then the refinement of C30 and C66. With interleaved goroutines: by the simulation (Props/FineResults.lean). |
| C93 | Concurrency brings about no new states | proved | The state of the specification of C92 has finitely many names; calls of one caller are built that bring it about (Puts under the names, Alias, UnAlias for empty aliases and kept locks), and C66 makes states with the same specification state bisimilar. Bisimilarity is stated with an existentially quantified relation, not with the specification. With interleaved goroutines: by the simulation (Props/FineResults.lean). |
| C94 | Exactly which states there are | proved | Invariants by induction over the specification's steps; conversely calls are built for every state (with Rename: through a scratch index; without: Puts, Aliases, UnAliases in this order), and realised by the model through C30. With interleaved goroutines: by the simulation (Props/FineResults.lean). |
| C95 | Rows of ListAliases may be read without a lock | partial | The cell an action writes is read off the semantics (checked against `exec`); the invariant of the slices that are or were in the alias table gives that appends happen behind them and other writes only by Rename; transferred to interleaved goroutines by the simulation; refuted by an execution with Rename. C95_methods_exact: exactly the sets of methods with Put, Alias, ListAliases and Rename allow such a race. The same for each tokenizer and builder, not only for all of them: a first Put is followed for an arbitrary tokenizer (Proofs/AnyCfg.lean), the schedules from there do not depend on it (Props/EveryConfig.lean). |
| C96 | The specification of atomic steps is exact | proved | Each atomic step is realised by an uninterrupted stretch of the call that takes it: a call between two atomic steps holds no lock, so every stretch can run to the next such point; by induction over the execution of atomic steps, keeping a set of reachable configurations in which every call stands at such a point; transferred to interleaved goroutines by C60; the exactness of results follows with C59. The hypothesis on kept mutexes is shown to be needed by an execution. With interleaved goroutines: by the simulation, in both directions for C96 (Props/FineResults.lean). |
| C97 | Answers depend on documents and aliases only | proved | A likeness of object states (objects numbered otherwise, same documents, same aliases) is kept by every atomic step, so executions of atomic steps from two states with the same contents match; interleaved calls are matched with atomic steps from a state at rest (C59) and back (the construction of C96, started from a state at rest). Two repositories that differ in labels and addresses and have the same contents are given. With interleaved goroutines: a configuration at rest can be taken up by the converse simulation, so answers carry over in both directions (Props/FineContents.lean). |
| C98 | The mutexes order conflicting accesses | partial | Executions carry the list of actions performed; what a call holds is a function of that list. Conflicting accesses need a common mutex in modes that exclude each other (the two lock disciplines of C51), so between them one call releases it and then the other takes it. Conversely calls that can race make their accesses next to each other, where nothing orders them. False, and with the same exact sets of methods, for each tokenizer and builder (Props/EveryRefuted.lean). False: nothing orders the accesses of Rename to the alias table and those of UnAlias (C98_refuted); proved that every other pair of conflicting accesses is ordered (C98_only_rename_unalias, C98_indices), and for which sets of methods all are (C98_methods_exact). The goroutines of Put and Search run within their calls here; C99 has them interleaved. |
| C99 | What goroutines started by Put and Search access is ordered | proved | Each step of an interleaved execution carries an event; what a call holds, which goroutines it waits for and who has rl are functions of the events. Between a goroutine and its call lies a fork or a join; between calls the argument of C98, with fork and join at its ends; between goroutines of one Put the indices differ, between those of one Search rl is unlocked and locked. The same exact sets of methods for each tokenizer and builder (Props/EveryRefuted.lean). Proved for every access to the index map, indices and results and for everything that a started goroutine accesses (C99_started, C99_indices, C99_same_call, C99_fork_join); for the alias table with the one exception stated (C99_only_rename_unalias, C99_unordered); C99_methods_exact gives the sets of methods. C99_executions: the executions with events are those of C60-C64. |
| C100 | Search engines work with every implementation of Indexer | proved | The engines are folded over an arbitrary Indexer: LinearSearch is a left fold of intersections, HitsSearch a tally of the documents met. A lawful index is represented by a memory index whose texts say their positions, which transfers the results of C15 and C16. Not modelled: an implementation whose methods have effects, change their answers during the search, or return negative positions. |
| C101 | The repository works with every implementation of Index | proved | `Model/AnyIndex.lean` has the methods of the repository over any implementation of Index; with the memory index written out they are the programs of Model/Repo.lean (C101_same_methods). Requests are written into contents of documents of a repository of memory indexes, and an engine reads them back and answers as the implementation would: the two repositories move in step (simulation), which transfers C48, C49, C51 and C54. Not modelled: a Search that changes the index, a Put that panics, a Builder that returns nil or has effects, implementations that call the repository, goroutines of one call interleaved, IndexRepo.String. |
| C102 | Hit counts do not overflow | partial | HitsSearch is modelled once more with Hits an int of w bits that wraps around (Model/Width); the counts are those of the unbounded model reduced to w bits, for any Indexer. Partial because the English is false (C102_refuted, for every w >= 3; C102_nothing_found and C102_refuted_32 say what is seen); C102_exact gives the exact condition. Overflow of lengths and positions is not modelled: a slice is never that long. False as stated: C102_refuted, C102_refuted_32. The exact condition is C102_exact (C102_exact_any_index for any Indexer); C102_distinct_ids_partial and C102_small_partial are the claim under guards. |
| C103 | A copy of an index is a snapshot | partial | MemoryIndex with its array of documents and its map as references (Model/Copies), and programs over any number of index variables. C103_put_exact says what a Put does to every variable, the rest follows from it. Partial because the English is false (C103_refuted); C103_copy_exact, C103_both and C103_deep_copy say exactly what happens. Not modelled: a caller that assigns one map or array to two variables, or assigns negative positions. False as stated: C103_refuted. C103_copy_exact gives the exact condition; C103_snapshot_partial is the claim for new documents that have no token of the query. |
| C104 | A panic of the user's tokenizer or builder can be recovered from | partial | Put and Search with a builder and a tokenizer that may panic (Model/UserPanic); a call ends by returning, by a panic that unwinds it, or with the process. C104_put_exact and C104_search_exact say for every state which it is and what is left behind, and that without a panic the calls are the ones of Model/Repo. C104_afterwards says what every method does with the index mutex kept; C104_put_keeps_concurrent and C104_afterwards_concurrent are the same for every interleaving, by an invariant on the program of the panicking Put. Partial because the English is false: C104_refuted shows it holds exactly of builders and tokenizers that never panic; C104_search_partial is the half that is true. False as stated: C104_refuted (true exactly if nothing panics). C104_search_partial is the half about Search; C104_put_exact gives exactly what a panicking Put leaves behind. |
| C105 | An index can be saved as JSON and loaded again | partial | Saving and loading by the exported fields (Model/Save): the documents, and the map entry by entry, each string re-encoded with malformed bytes replaced, as encoding/json does. C105_load_exact gives what any index holds after loading any saved one; C105_guard_exact the exact condition for a faithful round trip; C105_search_exact the same for the searches themselves; C105_round_trip_partial all searches before and after further Puts; C105_into_used and C105_into_used_search what loading into an index in use does. Partial because the English is false (C105_refuted, for every tokenizer). False as stated: C105_refuted. C105_guard_exact gives the exact condition (all names, contents and tokens are UTF-8), C105_round_trip_partial the claim under it. The bytes of the saved text are not modelled; encoding/json is not in the repository. |
| C106 | A document is found by its content however its request was made | partial | A request is a constructor call or literal followed by assignments to exported fields (Model/Request). C106_text_fixed and C106_content by induction on the assignments; C106_search_exact gives the results among any other documents, C106_guard_exact the exact condition, C106_constructed_partial the usual case; C106_literal_lost and C106_no_tokens say that a literal is never filed. Partial because the English is false (C106_refuted). False as stated: C106_refuted (a literal, whose text cannot be set outside the package). C106_guard_exact gives the exact condition, C106_constructed_partial the claim for requests made by a constructor whose content is not assigned to. |
| C107 | An index works however it was made | partial | The index with its tokenizer and map as values that may be nil, under arbitrary assignments to exported fields, Puts and loads (Model/OpenIndex). C107_put_panics and C107_put_leaves say when Put panics and what it leaves; C107_load_leaves what loading leaves; C107_works_exact is the exact condition for a value to work, with C100 for the engines; C107_sound_kept and C107_stays_partial: it is kept by Put; C107_puts_partial: an index with nothing but Puts is the one of Model/Index; C107_no_tokenizer, C107_loaded_literal, C107_nil_map_loses the failures. Partial because the English is false (C107_refuted). False as stated: C107_refuted (a literal). C107_works_exact gives the exact condition, C107_stays_partial the claim under it, for all further Puts. Positions assigned by a user are taken to be non-negative. |


## Trusted base

* Lean's kernel (all proofs are checked by `lake build`; `vcheck` replays them).
* Axioms: only Lean's `propext`, `Quot.sound` and `Classical.choice`.  No axiom is added, no `sorry`, no
  `native_decide`, no `bv_decide`.  Concrete witnesses are evaluated by the kernel (`decide +kernel`).
  Per theorem, see `AXIOMS.md`; in total:

* Classical.choice, Quot.sound, propext: 494 theorems
* Quot.sound, propext: 111 theorems
* none: 10 theorems
* propext: 16 theorems

* The reading of the Go code: the model is written by hand from `/repo`.  It agrees with every assertion of
  the repository's own tests (`Props/Suite.lean`).
* The behaviour of what is outside the repository, as described above: Go's runtime, `sync`, `sort`,
  `strings`, `unicode/utf8`, `hash/fnv`, vago `slices` and `streams`, easyjson, snowball.
