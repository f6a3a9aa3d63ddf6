{"id": "C01", "title": "Tokens are the maximal runs of kept characters", "statement": "Tokenize splits a text into exactly the maximal runs of characters accepted by the tokenizer, in text order: the text is separators and tokens alternating, every token is non-empty and made only of kept characters, consecutive tokens are separated by at least one separator character, and no other list of strings has that shape.", "quantifier": "all byte strings (valid UTF-8 or not), all keep-predicates", "why_tests_cant": "A test samples texts; the claim covers every byte string, including invalid UTF-8.", "anchors": ["analyze_clean_tokenizer.go:CleanTokenizer.Tokenize", "analyze_clean_tokenizer.go:NewKeepAlphanumericTokenizer"]}
{"id": "C02", "title": "Tokenization loses only separators", "statement": "Concatenating the tokens of a text gives back the text with its separator characters removed, byte for byte; a tokenizer that keeps everything returns the whole text as one token (none for the empty text).", "quantifier": "all byte strings, all keep-predicates", "why_tests_cant": "A test samples texts; the claim covers every byte string, including invalid UTF-8.", "anchors": ["analyze_clean_tokenizer.go:CleanTokenizer.Tokenize"]}
{"id": "C03", "title": "Several keep-predicates act as a union", "statement": "A character is kept by a tokenizer built from several predicates iff at least one predicate accepts it; a tokenizer built from none produces no token for any text; the order of the predicates never matters.", "quantifier": "all predicate lists, all byte strings", "why_tests_cant": "The claim is about every list of predicates and every text.", "anchors": ["analyze_clean_tokenizer.go:NewCleanTokenizer", "analyze_clean_tokenizer.go:CleanTokenizer.register"]}
{"id": "C04", "title": "A pipeline applies its filters left to right and nests", "statement": "A pipeline's output is the tokenizer's output passed through the filters in the order given; using a pipeline as the tokenizer of another pipeline equals one pipeline with the filters concatenated; a pipeline with no filter is its tokenizer.", "quantifier": "all tokenizers, all filter lists, all texts", "why_tests_cant": "Ordering must hold for every filter list, including filters that do not commute.", "anchors": ["analyze_compose.go:TokenizationPipeline.Tokenize", "analyze_compose.go:NewTokenizationPipeline"]}
{"id": "C05", "title": "The lower-case filter maps tokens one to one", "statement": "The lower-case filter returns the same number of tokens in the same order, each one the lower-cased form of the token at that position (character by character, invalid bytes becoming U+FFFD), and filtering twice equals filtering once.", "quantifier": "all token lists, all byte strings, every rune case table whose lower-casing is idempotent, fixes U+FFFD and agrees with ASCII", "why_tests_cant": "A test samples tokens; malformed UTF-8 and the ASCII fast path are the cases sampling misses.", "anchors": ["analyze_lowercase_filter.go:LowerCaseFilter.Filter"]}
{"id": "C06", "title": "The stop-word filter removes exactly the stop words", "statement": "The output is the input without the tokens that are in the stop-word set, order and multiplicity of all others kept; membership is exact (byte equality); filtering twice equals filtering once.", "quantifier": "all token lists, all stop-word sets", "why_tests_cant": "Must hold for all lists and sets.", "anchors": ["analyze_stopwords_filter.go:StopWordsFilter.Filter"]}
{"id": "C07", "title": "The stemmer filter never removes a token", "statement": "Whatever its removeStopWords flag, the Spanish stemmer filter returns exactly one output token per input token, in order, each depending only on the token at that position; so the flag cannot remove stop words, contrary to its name.", "quantifier": "all token lists, both flag values, every stemming function", "why_tests_cant": "A universally quantified structural claim over the third-party stemmer.", "anchors": ["analyze_stem_filter.go:SpanishStemmerFilter.Filter", "analyze_stem_filter.go:NewSpanishStemmer"]}
{"id": "C08", "title": "Searching is insensitive to ASCII letter case", "statement": "With a pipeline whose tokenizer keeps or separates a letter regardless of its case and whose first filter is the lower-case filter, two query texts, or two document statements, that differ only in the case of ASCII letters produce the same tokens, hence the same index and the same search results.", "quantifier": "all ASCII texts, all filters after lower-casing, all engines", "why_tests_cant": "Unit tests try a couple of words.", "anchors": ["analyze_lowercase_filter.go:LowerCaseFilter.Filter", "index_memory_index.go:MemoryIndex.Search", "index_memory_index.go:MemoryIndex.Put"]}
{"id": "C09", "title": "Every listed Spanish stop word takes effect", "statement": "Every entry of the built-in Spanish stop-word table is already in lower case, and every entry except \"por qué\" is a single token of the alphanumeric tokenizer, so that the README pipeline removes it; \"por qué\" contains a separator, so no token ever equals it and the entry has no effect.", "quantifier": "all entries of the table, all texts", "why_tests_cant": "A finite table lifted to all texts; no test walks it.", "anchors": ["analyze_stopwords_filter.go:SpanishStopWords"]}
{"id": "C10", "title": "Put appends exactly one document and never disturbs earlier ones", "statement": "After any sequence of Puts an index has one document per Put, in Put order; the document at a position never changes afterwards, and carries the request's name and content.", "quantifier": "all histories of Puts, all positions", "why_tests_cant": "Histories are unbounded.", "anchors": ["index_memory_index.go:MemoryIndex.Put", "index_memory_index.go:MemoryIndex.Len", "index_memory_index.go:MemoryIndex.Document"]}
{"id": "C11", "title": "The inverted index is exact", "statement": "After any sequence of Puts, the positions reported for a token are exactly those of the documents whose statement tokenizes to a list containing that token, in strictly increasing order, each once however often the token occurs in the document.", "quantifier": "all histories of Puts, all tokens, all tokenizers", "why_tests_cant": "The invariant must hold after every history, with repeated tokens and repeated documents.", "anchors": ["index_memory_index.go:MemoryIndex.Put", "index_memory_index.go:MemoryIndex.Indexed"]}
{"id": "C12", "title": "Callers cannot corrupt an index through Indexed", "statement": "The slice Indexed returns is fresh: writing into it, or appending to it, changes neither the index nor any slice returned earlier or later; and later Puts do not change a slice returned earlier.", "quantifier": "all histories of Puts, Indexed calls and caller writes", "why_tests_cant": "Aliasing depends on slice capacities and on the whole history.", "anchors": ["index_memory_index.go:MemoryIndex.Indexed", "index_memory_index.go:MemoryIndex.Put"]}
{"id": "C13", "title": "Putting an existing ID adds a second document", "statement": "Put never replaces: putting the same request n times leaves n documents and the token lookups report all n positions.", "quantifier": "all n, all requests, all prior histories", "why_tests_cant": "Unbounded repetition.", "anchors": ["index_memory_index.go:MemoryIndex.Put"]}
{"id": "C14", "title": "The statement is indexed, the content is returned", "statement": "Matching depends only on request statements and result documents only on names and contents: changing the contents changes no match position, changing the statements to ones with the same tokens changes nothing at all. NewDocRequest and NewDocRequestWithMime index the content itself.", "quantifier": "all histories, all queries, all requests", "why_tests_cant": "A non-interference claim relates two executions.", "anchors": ["entities_request.go:NewDocRequestWith", "entities_request.go:NewDocRequest", "index_memory_index.go:MemoryIndex.Put"]}
{"id": "C15", "title": "LinearSearch returns exactly the documents containing all query tokens", "statement": "For a non-empty token list LinearSearch returns, in document order, one result per document whose statement contains every query token, and nothing else; each result has Hits equal to the number of query tokens; for an empty list it returns nothing.", "quantifier": "all histories of Puts, all token lists, all tokenizers", "why_tests_cant": "Quantifies over all indexes and queries.", "anchors": ["search_linear_search.go:LinearSearch", "search_linear_search.go:intersection"]}
{"id": "C16", "title": "HitsSearch returns exactly the documents containing all query tokens", "statement": "HitsSearch returns one result per document whose statement contains every query token and nothing else (documented AND logic), sorted by Hits then ID.", "quantifier": "all histories of Puts, all token lists", "why_tests_cant": "False when two documents of one index share an ID or a 64-bit ID hash; a unit test with distinct IDs always passes.", "anchors": ["search_hits_search.go:HitsSearch", "entities_hash.go:Doc.Hash"]}
{"id": "C17", "title": "HitsSearch exact behaviour on any index", "statement": "On any index HitsSearch returns, sorted, one result per document position i such that the hits accumulated by all documents with i's hash over all query tokens are positive and at least the number of tokens; the result carries the first document met with that hash and that accumulated count.", "quantifier": "all histories of Puts including duplicate IDs and hash collisions, all token lists", "why_tests_cant": "Needs the exact accumulation over every history.", "anchors": ["search_hits_search.go:HitsSearch"]}
{"id": "C18", "title": "Both engines find the same documents", "statement": "LinearSearch and HitsSearch return the same results up to order for the same query on the same index.", "quantifier": "all histories of Puts, all queries", "why_tests_cant": "False under duplicate IDs or hash collisions; otherwise needs induction over histories.", "anchors": ["search_hits_search.go:HitsSearch", "search_linear_search.go:LinearSearch", "README.md:Search Algorithms"]}
{"id": "C19", "title": "HitsSearch output does not depend on the sorting algorithm", "statement": "Although the library sort is unstable, every correct sort yields the same result list for the same index and query: repeated searches return identical lists.", "quantifier": "all indexes (duplicate IDs included), all queries, all correct comparison sorts", "why_tests_cant": "Sorting instability shows only on particular sizes and inputs.", "anchors": ["search_hits_search.go:HitsSearch", "search_result.go:SearchResults.Less"]}
{"id": "C20", "title": "HitsSearch result order", "statement": "Results come with Hits descending, and equal Hits by ascending ID bytes. The documented tie-break by document (insertion) order does not hold.", "quantifier": "all indexes, all queries", "why_tests_cant": "The documented order coincides with the real one whenever test IDs are inserted in alphabetical order.", "anchors": ["search_result.go:SearchResults.Less", "search_hits_search.go:HitsSearch"]}
{"id": "C21", "title": "Less is a strict weak order", "statement": "The comparison used for sorting is irreflexive, asymmetric, transitive, and incomparable results agree on Hits and ID, so sorting is well defined.", "quantifier": "all pairs and triples of results", "why_tests_cant": "Order axioms quantify over all triples.", "anchors": ["search_result.go:SearchResults.Less"]}
{"id": "C22", "title": "Hits equals the number of query tokens", "statement": "In either engine every result's Hits is the number of tokens of the query, counting repeated tokens (not the number of distinct tokens as documented); so HitsSearch's relevance order never separates two results.", "quantifier": "all indexes with distinct ID hashes (LinearSearch: all indexes), all queries", "why_tests_cant": "Universally quantified over indexes and queries.", "anchors": ["search_hits_search.go:HitsSearch", "search_linear_search.go:LinearSearch"]}
{"id": "C23", "title": "Query word order does not matter", "statement": "Permuting the query tokens does not change the result list of LinearSearch or of HitsSearch.", "quantifier": "all indexes, all permutations of all queries", "why_tests_cant": "For HitsSearch false under duplicate IDs.", "anchors": ["search_hits_search.go:HitsSearch", "search_linear_search.go:LinearSearch"]}
{"id": "C24", "title": "Adding query tokens only narrows the result", "statement": "Every document found for a query is found for any non-empty subset of its tokens.", "quantifier": "all indexes, all queries", "why_tests_cant": "Relates two searches for all queries; false for HitsSearch under duplicate IDs.", "anchors": ["search_hits_search.go:HitsSearch", "search_linear_search.go:LinearSearch"]}
{"id": "C25", "title": "Adding documents never loses a match", "statement": "For a fixed query, putting more documents keeps all earlier results: LinearSearch's earlier list is a prefix of the later one, HitsSearch's is a sublist.", "quantifier": "all histories, all extensions, all queries", "why_tests_cant": "Relates two histories of any length.", "anchors": ["index_memory_index.go:MemoryIndex.Put", "search_linear_search.go:LinearSearch", "search_hits_search.go:HitsSearch"]}
{"id": "C26", "title": "Unknown tokens, empty queries and no-op engines", "statement": "A query with no token, or with a token no document contains, yields no result in LinearSearch; an empty query yields none in HitsSearch, and an unknown token none when ID hashes are distinct; NoopZeroSearch always yields nothing; NoopAllSearch yields every document in order with zero hits.", "quantifier": "all indexes, all queries", "why_tests_cant": "Universal over indexes and queries.", "anchors": ["search_noop_search.go:NoopZeroSearch", "search_noop_search.go:NoopAllSearch", "search_linear_search.go:LinearSearch", "search_hits_search.go:HitsSearch"]}
{"id": "C27", "title": "No engine panics on a real index", "statement": "On an index built by any sequence of Puts no built-in engine ever asks for a document position out of range.", "quantifier": "all histories of Puts, all queries, all engines", "why_tests_cant": "Out-of-range panics appear only on corrupt postings.", "anchors": ["index_memory_index.go:MemoryIndex.Document", "search_linear_search.go:LinearSearch", "search_hits_search.go:HitsSearch", "search_noop_search.go:NoopAllSearch"]}
{"id": "C28", "title": "intersection computes the set intersection of sorted lists", "statement": "For strictly increasing inputs the result is the strictly increasing list of common elements; for inputs sorted with repetitions each value occurs the smaller number of times; it is commutative on sorted inputs; and it is wrong for some unsorted inputs.", "quantifier": "all pairs of integer lists", "why_tests_cant": "Two-pointer boundary errors need particular shapes.", "anchors": ["search_linear_search.go:intersection"]}
{"id": "C29", "title": "IDs differing in exactly one byte never collide; collisions exist", "statement": "The document hash is a function of the ID only; two IDs of equal length that differ in exactly one byte hash differently; appending a common suffix to two IDs neither creates nor removes a collision; but distinct IDs with equal hashes exist, so the hash is not an identity.", "quantifier": "all IDs", "why_tests_cant": "2^64 hash values cannot be enumerated.", "anchors": ["entities_hash.go:Doc.Hash"]}
{"id": "C30", "title": "The repository behaves like a map of document lists plus a map of aliases", "statement": "Any sequence of repository calls by one caller that never passes UnAlias an unknown index or alias, nor renames an index to itself or onto another index, returns the results and ends in the state of a simple specification: names to lists of requests, aliases to lists of names.", "quantifier": "all call sequences, all map iteration orders, all goroutine orders, all slice growth policies", "why_tests_cant": "Histories and scheduler choices are unbounded.", "anchors": ["repos_repo.go:IndexRepo"]}
{"id": "C31", "title": "List, Has, ListAliases and HasAlias agree", "statement": "List returns exactly the names for which Has is true, each once; ListAliases has exactly one row per alias for which HasAlias is true.", "quantifier": "all reachable states, all iteration orders", "why_tests_cant": "Map iteration order is random.", "anchors": ["repos_repo.go:IndexRepo.List", "repos_repo.go:IndexRepo.Has", "repos_repo.go:IndexRepo.ListAliases", "repos_repo.go:IndexRepo.HasAlias"]}
{"id": "C32", "title": "Alias contract", "statement": "Alias(a,i) returns true iff index i exists and a does not already list i; then a lists its old indices followed by i; otherwise nothing changes.", "quantifier": "all reachable states, all names", "why_tests_cant": "All states, including in-place slice appends.", "anchors": ["repos_repo.go:IndexRepo.Alias"]}
{"id": "C33", "title": "UnAlias contract", "statement": "UnAlias(a,\"\") removes alias a and returns whether it existed. UnAlias(a,i) with existing alias and index removes i from a, keeps the other entries in order, and returns true; a keeps existing even when its last index is removed.", "quantifier": "all reachable states, all names", "why_tests_cant": "All states; the empty-alias corner is easily missed.", "anchors": ["repos_repo.go:IndexRepo.UnAlias"]}
{"id": "C34", "title": "A failed UnAlias leaves the repository usable", "statement": "After UnAlias returns false every other call still completes.", "quantifier": "all reachable states, all later calls", "why_tests_cant": "False: the false paths return with a mutex held; only a later writer hangs, so a test of UnAlias alone passes.", "anchors": ["repos_repo.go:IndexRepo.UnAlias"]}
{"id": "C35", "title": "Rename moves the index and every alias entry", "statement": "Rename(old,new) of an existing index to a fresh name returns true; new then holds exactly the documents old held, old is gone, every alias entry old becomes new in place; an unknown old returns false and changes nothing.", "quantifier": "all reachable states, all names", "why_tests_cant": "All states and alias shapes; false for new=old (the index is lost) and destructive for an existing new.", "anchors": ["repos_repo.go:IndexRepo.Rename"]}
{"id": "C36", "title": "Rename never destroys documents", "statement": "After Rename returns true the documents of every index present before are still searchable under some name.", "quantifier": "all reachable states, all names", "why_tests_cant": "False when new=old or new exists; tests use a fresh name.", "anchors": ["repos_repo.go:IndexRepo.Rename"]}
{"id": "C37", "title": "Drop removes the index and every reference to it", "statement": "Drop of an existing index returns true; afterwards the index is gone, no alias lists it, aliases left with no index are gone, every other index and every other non-empty alias entry is unchanged; Drop of an unknown name returns false and changes nothing.", "quantifier": "all reachable states, all iteration orders", "why_tests_cant": "Deletion while ranging over a map, for all alias maps.", "anchors": ["repos_repo.go:IndexRepo.Drop"]}
{"id": "C38", "title": "Aliases never dangle", "statement": "In every reachable state every name listed by an alias is an existing index, so searching or putting through an alias never dereferences a nil index.", "quantifier": "all call sequences", "why_tests_cant": "False after Rename(x,x); otherwise an inductive invariant over all histories.", "anchors": ["repos_repo.go:IndexRepo.Alias", "repos_repo.go:IndexRepo.Rename", "repos_repo.go:IndexRepo.Drop", "repos_repo.go:IndexRepo.Search"]}
{"id": "C39", "title": "Alias entries are distinct", "statement": "No alias lists the same index twice, so a search through an alias never reports a document twice and a Put through an alias stores it once per index.", "quantifier": "all call sequences", "why_tests_cant": "False after renaming onto another listed index.", "anchors": ["repos_repo.go:IndexRepo.Alias", "repos_repo.go:IndexRepo.Rename"]}
{"id": "C40", "title": "Name resolution", "statement": "Search and Put resolve a name to the index of that name if there is one, otherwise to the indices the alias lists; Search of a name that is neither returns an error; Put of such a name creates the index with exactly that document.", "quantifier": "all reachable states, all names, all engines", "why_tests_cant": "Shadowing of aliases by indices depends on history.", "anchors": ["repos_repo.go:IndexRepo.Search", "repos_repo.go:IndexRepo.getIndices", "repos_repo.go:IndexRepo.Put"]}
{"id": "C41", "title": "Searching an alias merges the per-index results", "statement": "For every goroutine schedule the stream of an alias search is the concatenation, in some order of the alias's indices, of what searching each index directly returns: nothing lost, duplicated or interleaved; a one-index alias returns exactly the index's results.", "quantifier": "all reachable states, all schedules, all engines", "why_tests_cant": "Schedules cannot be enumerated by tests.", "anchors": ["repos_repo.go:IndexRepo.Search"]}
{"id": "C42", "title": "Repeated alias searches return the same list", "statement": "Searching the same name twice without an intervening write returns the same list.", "quantifier": "all reachable states, all schedules", "why_tests_cant": "True for one index; false for aliases of two or more indices because goroutine completion order decides the concatenation order.", "anchors": ["repos_repo.go:IndexRepo.Search"]}
{"id": "C43", "title": "Put through an alias reaches every listed index once", "statement": "After Put through an alias of distinct indices, each listed index has exactly one more document, the one put, and every other index is unchanged, whatever the interleaving of the writer goroutines.", "quantifier": "all reachable states, all interleavings", "why_tests_cant": "Goroutine interleavings are unbounded.", "anchors": ["repos_repo.go:IndexRepo.Put"]}
{"id": "C44", "title": "Put is never silently discarded", "statement": "After Put(name, doc) returns, a search under name with NoopAllSearch reports doc.", "quantifier": "all reachable states, all requests", "why_tests_cant": "False when name is an alias emptied by UnAlias: the document is dropped without error.", "anchors": ["repos_repo.go:IndexRepo.Put", "repos_repo.go:IndexRepo.UnAlias"]}
{"id": "C45", "title": "Indices are isolated", "statement": "A call that names one index (Put, Rename, Drop, Alias, UnAlias) never changes what a direct search of a different index returns.", "quantifier": "all reachable states, all calls, all engines", "why_tests_cant": "Non-interference over all states.", "anchors": ["repos_repo.go:IndexRepo"]}
{"id": "C46", "title": "Reads do not change the repository", "statement": "Has, HasAlias, List, ListAliases and Search leave every later call's outcome unchanged, and release every lock they take.", "quantifier": "all reachable states, all names, all engines", "why_tests_cant": "Relates all continuations.", "anchors": ["repos_repo.go:IndexRepo.Search", "repos_repo.go:IndexRepo.List", "repos_repo.go:IndexRepo.ListAliases"]}
{"id": "C47", "title": "A ListAliases result is a stable snapshot", "statement": "The rows returned by ListAliases keep their contents whatever calls follow.", "quantifier": "all histories after the call", "why_tests_cant": "False: rows share backing arrays with the repository and Rename writes through them; depends on append capacities.", "anchors": ["repos_repo.go:IndexRepo.ListAliases", "repos_repo.go:IndexRepo.Rename"]}
{"id": "C48", "title": "Searches never see a half-applied Put", "statement": "In every interleaving of concurrent calls, whenever a Search evaluates an engine on an index, that index is the result of a whole number of complete Puts, at least one.", "quantifier": "all numbers of concurrent calls, all interleavings", "why_tests_cant": "Schedules are unbounded and the race detector sees only executed ones.", "anchors": ["repos_repo.go:IndexRepo.Put", "repos_repo.go:IndexRepo.Search", "index_memory_index.go:MemoryIndex.Put"]}
{"id": "C49", "title": "No deadlock unless a lock was leaked", "statement": "In every interleaving, as long as no finished call has leaked a lock, some unfinished call can take a step.", "quantifier": "all numbers of concurrent calls, all interleavings, writer-preferring RWMutex", "why_tests_cant": "Deadlocks depend on rare schedules.", "anchors": ["repos_repo.go:IndexRepo"]}
{"id": "C50", "title": "A leaked lock blocks writers forever in every schedule", "statement": "Once UnAlias has returned false for an unknown index, no Put, and no Rename or Drop of any index, can ever complete again, in any schedule; once it has returned false for an unknown alias, no call that needs the alias table can.", "quantifier": "all schedules, all later calls", "why_tests_cant": "\"Never\" quantifies over infinite behaviours.", "anchors": ["repos_repo.go:IndexRepo.UnAlias"]}
{"id": "C51", "title": "Shared data is race free", "statement": "Two concurrent calls never access the same map, slice or index with at least one write unless both accesses are ordered by a mutex.", "quantifier": "all programs, all interleavings", "why_tests_cant": "The race detector sees only executed schedules. False for Rename, which updates alias slices without the alias mutex.", "anchors": ["repos_repo.go:IndexRepo.Rename", "repos_repo.go:IndexRepo.UnAlias", "repos_repo.go:IndexRepo.ListAliases"]}
{"id": "C52", "title": "Concurrent Puts are never lost", "statement": "If two Puts of different documents to one index name both return, both documents are found afterwards.", "quantifier": "all interleavings", "why_tests_cant": "False when the name is new: both resolve the name before either creates the index, and the later creation overwrites the earlier.", "anchors": ["repos_repo.go:IndexRepo.Put", "repos_repo.go:IndexRepo.getIndices"]}
{"id": "C53", "title": "Drop is atomic", "statement": "Of two concurrent Drops of the same index only one returns true, and a Drop that returns true has removed an index.", "quantifier": "all interleavings", "why_tests_cant": "False: existence is checked under a lock that is released before the removal.", "anchors": ["repos_repo.go:IndexRepo.Drop"]}
{"id": "C54", "title": "No crash in any schedule without Rename", "statement": "In every interleaving of calls other than Rename no call ever uses a nil index; with Rename a schedule with UnAlias leaves a dangling alias, but even then only Put (nil index, index reached twice) and Search (nil index, engine) can panic: no mutex is ever misused and no slice access is out of range.", "quantifier": "all interleavings", "why_tests_cant": "Schedules are unbounded.", "anchors": ["repos_repo.go:IndexRepo.Rename", "repos_repo.go:IndexRepo.UnAlias", "repos_repo.go:IndexRepo.Search"]}
{"id": "C55", "title": "R1 and R2 are the Snowball regions", "statement": "For every word R1 is the part after the first non-vowel that follows a vowel, or empty if there is none, and R2 is the same region of R1; both are suffixes of the word starting at a character boundary, for any bytes, without panicking.", "quantifier": "all byte slices", "why_tests_cant": "All words and all malformed encodings.", "anchors": ["stemmer_spanish_snowball.go:R1R2RV"]}
{"id": "C56", "title": "RV is the documented region", "statement": "RV is the region after the next vowel if the second letter is a consonant, after the next consonant if the first two letters are vowels, after the third letter otherwise, and empty if that position does not exist.", "quantifier": "all byte slices", "why_tests_cant": "False whenever R1 is empty, e.g. for a word like \"crear\": the function returns before computing RV.", "anchors": ["stemmer_spanish_snowball.go:R1R2RV"]}
{"id": "C57", "title": "SearchResult JSON round-trips", "statement": "Unmarshalling what MarshalJSON produced gives back the same result.", "quantifier": "all results (names and contents), at the level of the JSON lexer tokens", "why_tests_cant": "All strings and hit counts.", "anchors": ["search_result_easyjson.go:SearchResult.MarshalJSON", "search_result_easyjson.go:SearchResult.UnmarshalJSON"]}
{"id": "C58", "title": "SearchResult JSON decoding tolerates order, unknown and null fields", "statement": "Decoding does not depend on the order of distinct fields, ignores unknown fields with arbitrarily nested values, keeps the previous value of absent or null fields, and lets the last occurrence of a repeated scalar field win.", "quantifier": "all field lists, all nested JSON values", "why_tests_cant": "Unbounded nesting and field permutations.", "anchors": ["search_result_easyjson.go:easyjsonBb771ebaDecodeGithubComSoniricoVisigoth", "search_result_easyjson.go:easyjsonBb771ebaDecodeGithubComSoniricoVisigoth1"]}
{"id": "C59", "title": "Concurrent calls take effect in at most two atomic steps", "statement": "From any state at rest, whatever was called before, in every interleaving of calls that do not include both Rename and UnAlias, there is an execution in which every call takes effect in at most two atomic steps between its invocation and its return (one step for every call but Put, Drop and UnAlias of an index) with the same results, the same panics and, when no call is running, the same repository; the steps of a call taken in succession are the sequential specification of the call.", "quantifier": "all programs without both Rename and UnAlias, all interleavings", "why_tests_cant": "The number of interleavings is unbounded; a test runs a few.", "anchors": ["repos_repo.go:IndexRepo"]}
{"id": "C60", "title": "Interleaving the goroutines of Put and Search changes nothing", "statement": "When the goroutines started by Put and Search are interleaved action by action with each other and with all other calls and their goroutines, the calls that can be observed, their results and panics, and (whenever no running call has the index mutex to itself) the repository are, at any number of points of an execution, exactly those at points of one execution in which the goroutines of a call run one after the other.", "quantifier": "all programs, all interleavings of calls and goroutines", "why_tests_cant": "The number of interleavings is unbounded; a test runs a few.", "anchors": ["repos_repo.go:IndexRepo.Put", "repos_repo.go:IndexRepo.Search"]}
{"id": "C61", "title": "Goroutines of Put and Search never race", "statement": "In every interleaving of calls and of the goroutines they start, two goroutines are never about to access the same variable (index map, an index, alias map, backing array, result of a Search) with one of them writing, except a Rename and an UnAlias on the alias table; goroutines started by Put and Search race with nothing.", "quantifier": "all programs, all interleavings of calls and goroutines", "why_tests_cant": "A race detector only sees the interleavings that happen.", "anchors": ["repos_repo.go:IndexRepo.Put", "repos_repo.go:IndexRepo.Search", "repos_repo.go:IndexRepo.Rename", "repos_repo.go:IndexRepo.UnAlias"]}
{"id": "C62", "title": "Calls with goroutines neither deadlock nor run forever", "statement": "In every interleaving of calls and goroutines: as long as no finished call has kept a lock, if some call has not finished then some goroutine can take a step; a call waiting for its goroutines can always go on; and no execution without new calls is infinite.", "quantifier": "all programs, all interleavings of calls and goroutines", "why_tests_cant": "Absence of deadlock over all interleavings.", "anchors": ["repos_repo.go:IndexRepo.Put", "repos_repo.go:IndexRepo.Search"]}
{"id": "C63", "title": "The text of an index shows exactly its contents", "statement": "MemoryIndex.String shows the name and, for every token of the stored documents exactly once, the number and the list of the positions of the documents containing it, in decimal; the order of the lines is the only thing that varies between two renderings.", "quantifier": "all indices, all map iteration orders", "why_tests_cant": "Map iteration order is random and the tokens are unbounded.", "anchors": ["index_memory_index.go:MemoryIndex.String"]}
{"id": "C64", "title": "The text of the repository shows every index once", "statement": "IndexRepo.String always returns, even after leaked locks, changes nothing, and shows every existing index exactly once with exactly its documents; in every interleaving the index it renders is the result of a whole number of complete Puts.", "quantifier": "all reachable states, all map iteration orders, all interleavings", "why_tests_cant": "All states, including those in which other calls hang.", "anchors": ["repos_repo.go:IndexRepo.String", "index_memory_index.go:MemoryIndex.String"]}
{"id": "C65", "title": "Every index is shown under its own name", "statement": "The text of the repository shows each index under the name by which Has and Search find it.", "quantifier": "all call sequences, all interleavings", "why_tests_cant": "False after Rename: the object keeps the name it was made with.", "anchors": ["repos_repo.go:IndexRepo.String", "repos_repo.go:IndexRepo.Rename", "index_memory_index.go:MemoryIndex.String"]}
{"id": "C66", "title": "The specification of the repository is exact", "statement": "Used by one caller, whether a method hangs or crashes, and how, does not depend on map iteration order or goroutine schedule; and the values a method may return are exactly those the sequential specification allows: each allowed value is returned for some choice of the runtime.", "quantifier": "all reachable states, all methods, all choices of the runtime", "why_tests_cant": "Tests see one schedule and one map order per run.", "anchors": ["repos_repo.go:IndexRepo.Search", "repos_repo.go:IndexRepo.List", "repos_repo.go:IndexRepo.ListAliases", "repos_repo.go:IndexRepo.String"]}
{"id": "C67", "title": "Sorting search results in place", "statement": "Whatever algorithm sort.Sort is, calling nothing but Less and Swap with indices below Len, it only rearranges the results: none is lost, duplicated or changed; a swap exchanges exactly the two results named; indices stay in range; the contract HitsSearch relies on is met by an actual algorithm (insertion sort written against Len, Less and Swap); the accessors return what was stored.", "quantifier": "all result lists, all sorting algorithms that use only Less and Swap", "why_tests_cant": "No test exercises Swap or the sort separately, and the algorithm is the standard library's.", "anchors": ["search_result.go:SearchResults.Swap", "search_result.go:SearchResults.Less", "search_result.go:SearchResults.Len", "search_hits_search.go:HitsSearch"]}
{"id": "C68", "title": "A recovered panic of Search leaves no trace", "statement": "When Search panics in its caller's goroutine (nil index, panicking engine), the deferred RUnlock can always run, and afterwards the call holds and awaits no lock; the repository and all other calls are as after an execution in which the call has not begun; other calls cannot be deadlocked by it.", "quantifier": "all executions: any number of calls, any interleaving, any number of recovered panics", "why_tests_cant": "Needs a panic at every point of every interleaving.", "anchors": ["repos_repo.go:IndexRepo.Search"]}
{"id": "C69", "title": "What the engines ask of an index", "statement": "HitsSearch calls Indexed once per query token, in query order, each time followed by Document for the positions returned, then Document once for every document of the index; LinearSearch calls Indexed for a prefix of the query and then Document exactly once per result, in document order; NoopAllSearch calls Document once per document; NoopZeroSearch and a LinearSearch of no tokens call nothing.", "quantifier": "all indexes, all queries", "why_tests_cant": "Tests look at results, not at the calls made on the index.", "anchors": ["search_hits_search.go:HitsSearch", "search_linear_search.go:LinearSearch", "search_noop_search.go:NoopAllSearch", "search_noop_search.go:NoopZeroSearch"]}
{"id": "C70", "title": "Documented cost of HitsSearch", "statement": "Counting calls on the index, the time of HitsSearch is at most a constant times T x D + R log R, and its table of hit counts has at most a constant times R entries (T query tokens, D documents per token, R results).", "quantifier": "all indexes, all queries, all constants", "why_tests_cant": "A complexity claim is about all sizes; no test counts steps.", "anchors": ["search_hits_search.go:HitsSearch"]}
{"id": "C71", "title": "Documented cost and early termination of LinearSearch", "statement": "Counting calls on the index and iterations of intersection, the time of LinearSearch is at most a constant times T x D + I; intersection makes at most len(a) + len(b) iterations; and LinearSearch stops asking for tokens as soon as no document contains all tokens asked for so far, except that after the first token it stops exactly if Indexed returned nil.", "quantifier": "all indexes, all queries", "why_tests_cant": "A complexity claim is about all sizes; early termination does not show in results.", "anchors": ["search_linear_search.go:intersection", "search_linear_search.go:LinearSearch"]}
{"id": "C72", "title": "UnmarshalJSON accepts exactly JSON", "statement": "SearchResult.UnmarshalJSON succeeds exactly on the texts of null, which changes nothing, and of objects whose fields have the right types, and then leaves what these fields say; anything else, in particular misplaced separators, unclosed objects and anything after the value, is an error.", "quantifier": "all token sequences, all receivers", "why_tests_cant": "Malformed texts are endless; tests try a handful.", "anchors": ["search_result_easyjson.go:SearchResult.UnmarshalJSON", "search_result_easyjson.go:easyjsonBb771ebaDecodeGithubComSoniricoVisigoth", "search_result_easyjson.go:easyjsonBb771ebaDecodeGithubComSoniricoVisigoth1"]}
{"id": "C73", "title": "A failed UnmarshalJSON leaves the receiver unchanged", "statement": "If SearchResult.UnmarshalJSON returns an error, the receiver is as before the call.", "quantifier": "all token sequences, all receivers", "why_tests_cant": "Needs a failure at every point of every text.", "anchors": ["search_result_easyjson.go:SearchResult.UnmarshalJSON"]}
{"id": "C74", "title": "SearchResult JSON round-trips as text", "statement": "Decoding the bytes that MarshalJSON writes gives the same search result back, whatever bytes its ID and content contain; the bytes written are UTF-8 and contain no control characters.", "quantifier": "all results, all previous receiver values", "why_tests_cant": "Random strings in tests are valid UTF-8.", "anchors": ["search_result_easyjson.go:SearchResult.MarshalJSON", "search_result_easyjson.go:SearchResult.UnmarshalJSON"]}
{"id": "C75", "title": "The way a JSON text is written does not matter", "statement": "White space between tokens, the choice among the escapes of JSON (including surrogate pairs), in values and in field names, and the way numbers that are not read are written have no effect on what UnmarshalJSON does.", "quantifier": "all JSON values, all ways of writing them, all receivers", "why_tests_cant": "Every text has unboundedly many equivalent writings.", "anchors": ["search_result_easyjson.go:SearchResult.UnmarshalJSON"]}
{"id": "C76", "title": "From texts to results", "statement": "With the analyzer of the README, after documents are put under a new name, LinearSearch there returns exactly the documents, in order, whose statements have all terms of the query: a term is the stem of a lower-cased maximal run of letters and digits that is not a Spanish stop word. Hits is the number of such words of the query. HitsSearch returns the same documents ordered by ID when the IDs hash differently. The README program finds the Java course alone exactly if the stemmer tells 'java' from the other words.", "quantifier": "all documents, texts, queries and stemmers", "why_tests_cant": "Tests check a few texts with one stemmer.", "anchors": ["analyze_compose.go:TokenizationPipeline.Tokenize", "analyze_clean_tokenizer.go:NewKeepAlphanumericTokenizer", "analyze_stopwords_filter.go:StopWordsFilter.Filter", "analyze_stem_filter.go:SpanishStemmerFilter.Filter", "repos_repo.go:IndexRepo.Put", "repos_repo.go:IndexRepo.Search", "search_linear_search.go:LinearSearch", "search_hits_search.go:HitsSearch"]}
{"id": "C77", "title": "What is put into an index stays in it", "statement": "In every execution of concurrent calls index objects only grow: documents and postings are appended, never changed or removed. A Put that has returned has stored its document, filed under all its tokens, in every index its name stood for at one moment while it was running, or in an index it created if the name stood for nothing. The document stays there and LinearSearch of that index finds it; it gets out of reach only when a Put or Rename that binds the name of the index, or a Drop or Rename that unbinds it, makes the name lead elsewhere.", "quantifier": "all executions of concurrent calls", "why_tests_cant": "A lost document shows only under particular schedules, and tests of single schedules cannot tell removal from an index from loss of the index.", "anchors": ["repos_repo.go:IndexRepo.Put", "repos_repo.go:IndexRepo.getIndices", "repos_repo.go:IndexRepo.Drop", "repos_repo.go:IndexRepo.Rename", "index_memory_index.go:MemoryIndex.Put"]}
{"id": "C78", "title": "Callers cannot change the aliases through the rows of ListAliases", "statement": "Whatever a caller does with the slices in the rows returned by ListAliases, writing elements or appending, no alias of the repository changes. (False: a write through a row just returned changes exactly that alias at that position; afterwards Search and Put of the alias can crash the process, or Put can race. An append overwrites what Alias added in the meantime. Appending is harmless as long as Alias has not been called since. Whatever callers do, the repository stays in a state of the specification.)", "quantifier": "all states, callers' writes and appends, interleaved with all calls", "why_tests_cant": "Tests read the rows; they do not write into them, and whether append shares the array depends on the capacity the runtime chose.", "anchors": ["repos_repo.go:IndexRepo.ListAliases", "repos_repo.go:IndexRepo.Alias", "repos_repo.go:AliasesResult"]}
{"id": "C79", "title": "Which methods can be used together", "statement": "For executions of concurrent calls of a given set of methods: no call panics (but for the engine), and every alias lists only distinct existing indices when no call is running, exactly if one of Put, Alias and Rename is not in the set; all calls complete exactly if UnAlias is not in it or neither Put nor Rename is; what ListAliases returned never changes afterwards exactly if one of Put, Alias, ListAliases and Rename is not in it; every index carries the name it is found by exactly if one of Put and Rename is not in it.", "quantifier": "all sets of methods, all executions of concurrent calls of these methods", "why_tests_cant": "A test run uses one set of methods and one schedule; the claim is that a set is safe in every execution, and that no larger set is.", "anchors": ["repos_repo.go:IndexRepo.Put", "repos_repo.go:IndexRepo.Alias", "repos_repo.go:IndexRepo.UnAlias", "repos_repo.go:IndexRepo.Rename", "repos_repo.go:IndexRepo.ListAliases"]}
{"id": "C80", "title": "Engines and tokenizers may call the repository", "statement": "An engine passed to Search and the tokenizer of the repository may call methods of the repository without risk of deadlock. (False: both run while the index mutex is held. Exactly the calls of HasAlias, ListAliases and UnAlias of a whole alias are free of risk. An engine that makes any other call can deadlock with a concurrent Put; with one caller it hangs exactly if the call is Put, Rename or the Drop of an index. A tokenizer that makes any other call hangs whenever a document is stored. A call that waits for itself never moves again, whatever happens.)", "quantifier": "all sets of calls made by engines and by tokenizers, all executions of concurrent calls", "why_tests_cant": "Needs a writer to arrive between two particular steps of one call; tests use engines and tokenizers that make no calls.", "anchors": ["repos_repo.go:IndexRepo.Search", "repos_repo.go:IndexRepo.Put", "search_search.go:Engine", "index_memory_index.go:MemoryIndex.Put"]}
{"id": "C81", "title": "Search results inside larger JSON", "statement": "MarshalEasyJSON appends to the writer exactly what MarshalJSON returns. UnmarshalEasyJSON, called inside a larger text, reads exactly one value, as UnmarshalJSON would read it on its own, leaves the lexer right behind it, and changes nothing once an error has occurred; called at the start of a text it is UnmarshalJSON. A slice of results written and read with them comes back the same if its strings are UTF-8.", "quantifier": "all lexer states at a value, all JSON values, all results and slices", "why_tests_cant": "The methods are for callers in other packages; no test of the package calls them.", "anchors": ["search_result_easyjson.go:SearchResult.MarshalEasyJSON", "search_result_easyjson.go:SearchResult.UnmarshalEasyJSON"]}
{"id": "C82", "title": "An index may be called from several goroutines at once", "statement": "Calls of Put and Search on one MemoryIndex may be made from several goroutines at once: when all have returned the index has the documents of all the Puts. (False: MemoryIndex has no mutex. Two Puts that overlap can lose a document, leave postings for a document that is not there, so that a later search panics, and race. It holds of executions in which no Put is under way together with another call: searches may overlap each other.)", "quantifier": "all interleavings of memory accesses of any number of calls, all engines", "why_tests_cant": "Needs two goroutines between two particular memory accesses; the tests of the index are sequential.", "anchors": ["index_memory_index.go:MemoryIndex.Put", "index_memory_index.go:MemoryIndex.Search", "index_memory_index.go:MemoryIndex.Indexed", "index_memory_index.go:MemoryIndex.Document"]}
{"id": "C83", "title": "The package's own stemmer is unfinished", "statement": "Stemmer.Stem returns nil for every word, so it tells no two words apart; the stemmer filter does not use it.", "quantifier": "all byte slices", "why_tests_cant": "No test calls it.", "anchors": ["stemmer_spanish_snowball.go:Stemmer.Stem"]}
{"id": "C84", "title": "Documented space of LinearSearch", "statement": "LinearSearch uses O(I) space, as the README says, I being the sizes of the intersections: the integers it allocates are at most a constant times I. (False for every constant: the positions of every token asked for are copied, and each intersection is given room for the longer of its two inputs, even if it comes out empty. What is allocated is exactly that; it holds if the documents that contain one of the query tokens contain all of them, so for queries of one token, and never more than three integers are allocated for each pair of a token asked for and a document with it. intersection never grows its result.)", "quantifier": "all requests, queries, tokenizers, growth policies of append", "why_tests_cant": "A test sees results, not allocations, and a benchmark sees one input at a time.", "anchors": ["README.md:117", "search_linear_search.go:intersection", "search_linear_search.go:LinearSearch"]}
{"id": "C85", "title": "The Snowball regions are views of the word", "statement": "R1R2RV copies nothing and never panics: R1, R2 and RV are nil or the end of the word from some position on, in the memory of the word, and R2 is the end of R1. So assigning to a byte of a region changes exactly one byte of the word, and every region with that byte; appending to a region never changes the word, but if the word has spare capacity what is appended to one region is overwritten by what is appended to another, and if it has none no slice there was before changes.", "quantifier": "all byte slices in all memories, all positions and bytes, all growth policies of append", "why_tests_cant": "The test compares the contents of fresh slices and changes none.", "anchors": ["stemmer_spanish_snowball.go:R1R2RV"]}
{"id": "C86", "title": "Analyzers are fixed when they are built", "statement": "A tokenizer built from the parts of the package gives the same tokens for a text at every call, so a document can always be found with its own words. (False: a stop-word filter keeps the map it was given, such as the exported SpanishStopWords, and a pipeline may keep the slice of filters it was given; both can be changed later. It holds while nobody changes the maps and arrays the tokenizer reads; a pipeline given its filters one by one has an array of its own. If the answers change, LinearSearch finds exactly the documents that had all query tokens when they were put, and so does HitsSearch if the IDs hash differently: adding stop words keeps documents findable with their own statements unless nothing is left of them, removing one can lose a document.)", "quantifier": "all memories, sequences of changes, nested pipelines, histories of Put with changing tokenizers", "why_tests_cant": "Tests build a tokenizer, use it and change nothing.", "anchors": ["analyze_stopwords_filter.go:NewStopWordsFilter", "analyze_stopwords_filter.go:SpanishStopWords", "analyze_compose.go:NewTokenizationPipeline", "analyze_compose.go:TokenizationPipeline.Tokenize", "index_memory_index.go:MemoryIndex.Put"]}
{"id": "C87", "title": "No call waits forever", "statement": "However many calls are made, for ever, every call ends, provided that the scheduler and the mutexes are fair (a goroutine that can run does run at some point; a mutex that is free again and again lets in at some point a call that waits for it) and that no finished call has kept a lock. In particular every call returns if none panics and UnAlias given an index never returns false. While a call waits for a write lock no new reader gets in. Without the condition on kept locks a Put can wait forever in a fair history. For sets of methods: every call of every fair history of calls of these methods ends, or one panics, exactly if UnAlias is not in the set or neither Put nor Rename is.", "quantifier": "all endless histories of calls, with the goroutines of the calls interleaved or not", "why_tests_cant": "A test makes finitely many calls and cannot wait forever.", "anchors": ["repos_repo.go:IndexRepo", "repos_repo.go:Put", "repos_repo.go:Search", "repos_repo.go:Alias", "repos_repo.go:UnAlias"]}
{"id": "C88", "title": "Size of an index", "statement": "Memory-efficient inverted index (README): an index holds one document for each Put, one map entry for each different token of the documents, and one position for each pair of a document and a token of it, however often the token is repeated; so never more positions than tokens read, and exactly as many if and only if no statement repeats a token. One more Put adds one position for each different token of its statement, and one map entry for each of them that no document had.", "quantifier": "all tokenizers and histories of Put", "why_tests_cant": "Tests look up a few tokens of two or three documents and never count what is stored.", "anchors": ["README.md:Memory-efficient inverted index", "index_memory_index.go:MemoryIndex.Put"]}
{"id": "C89", "title": "Cost of Put", "statement": "Putting a document costs time proportional to the document, whatever is already stored: the iterations of Put's loops are at most a constant times the tokens of the statement. (False for every constant: before a token gets its new position Put reads all positions the token has. The iterations of the inner loop are exactly the numbers of stored documents with each token of the statement, summed over its tokens with their repetitions, plus one for each repetition; so n documents that share a token cost at least n(n-1)/2, and exactly the sum of n(n-1)/2 over all tokens if no statement repeats one. It holds if no token of the statement is in more than a fixed number of stored documents.)", "quantifier": "all tokenizers, histories of Put and documents", "why_tests_cant": "Tests put two or three documents; the growth shows only with many documents that share tokens.", "anchors": ["index_memory_index.go:MemoryIndex.Put"]}
{"id": "C90", "title": "Names do not depend on documents", "statement": "Which names exist, what they stand for, what the aliases list, which locks are held, what List, Has, HasAlias, ListAliases, Alias, UnAlias, Rename and Drop answer, and which calls wait or panic, does not depend on the documents put, on the tokenizer, or on the queries and engines of searches, provided that no engine panics: for every execution there is one with other documents, queries, engines and another tokenizer that agrees with it in all of this, and the possible ends of a set of calls are the same.", "quantifier": "all executions of concurrent calls (goroutines of the calls interleaved or not), all documents, tokenizers, queries and engines that do not panic", "why_tests_cant": "Relates pairs of executions; a test sees one execution with one set of documents.", "anchors": ["repos_repo.go:IndexRepo", "repos_repo.go:Put", "repos_repo.go:Search", "index_index.go:Builder"]}
{"id": "C91", "title": "Every call takes effect at one moment", "statement": "Concurrent use of a repository is linearizable: from any state at rest, every execution of concurrent calls is matched by an execution in which each call takes effect all at once, at one moment after it is made and before it returns, as if a single caller made the calls in that order, with the same results and the same repository whenever no call is running. (False; it holds from every state at rest exactly for the sets of methods with no Put, no Drop and not both Rename and UnAlias, whatever the tokenizer, and with the goroutines of Put and Search interleaved or not.)", "quantifier": "all executions of any number of concurrent calls, from every reachable state at rest", "why_tests_cant": "Quantifies over all interleavings and over all orders that could explain them.", "anchors": ["repos_repo.go:Put", "repos_repo.go:Drop", "repos_repo.go:UnAlias", "repos_repo.go:Rename", "repos_repo.go:Alias", "repos_repo.go:Search"]}
{"id": "C92", "title": "When all calls have returned, one caller can go on", "statement": "When all of any number of concurrent calls have returned, whatever they were and however they were interleaved, the repository is in a state of the specification for one caller: no two names share an index, every index is the result of a whole number of Puts, at least one, of requests that were put, and the locks still held are one for each UnAlias of an index that returned false. A call made then does what it does when run from start to end, so one caller goes on as the sequential specification says, for any number of calls.", "quantifier": "all executions of any number of concurrent calls (goroutines of the calls interleaved or not), all later calls of one caller", "why_tests_cant": "The state left behind depends on the interleaving; a test sees one.", "anchors": ["repos_repo.go:IndexRepo", "repos_repo.go:Put", "repos_repo.go:UnAlias", "repos_repo.go:Rename"]}
{"id": "C93", "title": "Concurrency brings about no new states", "statement": "When all of any number of concurrent calls have returned, one caller could have left a repository behind that cannot be told from it: there is a sequence of calls of one caller after which every later call, and so on for any number of calls, can return the same values, panics alike and waits for ever alike. (String, whose text shows labels, is not compared. The one caller may need Rename even if no concurrent call was one.)", "quantifier": "all executions of any number of concurrent calls (goroutines of the calls interleaved or not), all sequences of later calls", "why_tests_cant": "Relates every interleaving to a sequential history that a test would have to guess.", "anchors": ["repos_repo.go:IndexRepo", "repos_repo.go:Put", "repos_repo.go:UnAlias", "repos_repo.go:Rename", "repos_repo.go:Drop"]}
{"id": "C94", "title": "Exactly which states there are", "statement": "The states one caller can bring about are exactly those with finitely many names and no index without documents: aliases may list anything, so the repository keeps no other invariant; any table of aliases can be what ListAliases returns. Without Rename they are exactly those in which, besides, every alias lists existing indices, none twice, and in which there is an index with a name that is not empty if an alias is empty or the alias mutex is kept. Without Rename and UnAlias, besides, no alias is empty and no lock is kept. Concurrent calls that have all returned leave no other states.", "quantifier": "all states of the specification, all sequences of calls", "why_tests_cant": "An invariant test can only fail to find a counterexample; that an invariant is the strongest one needs a history for every state.", "anchors": ["repos_repo.go:IndexRepo", "repos_repo.go:Rename", "repos_repo.go:UnAlias", "repos_repo.go:Drop"]}
{"id": "C95", "title": "Rows of ListAliases may be read without a lock", "statement": "Going through the rows that ListAliases has returned, without any lock, never races with calls that run at the same time: no call writes a cell of a backing array that belongs to a row. (False while a Rename runs that finds its old name in a row; Alias, which appends in place to the same arrays, writes only behind them.)", "quantifier": "all executions of any number of concurrent calls (goroutines of the calls interleaved or not), all rows returned so far", "why_tests_cant": "A race detector sees only the interleavings that happen, and only the capacities that the allocator happened to choose.", "anchors": ["repos_repo.go:ListAliases", "repos_repo.go:Alias", "repos_repo.go:Rename"]}
{"id": "C96", "title": "The specification of atomic steps is exact", "statement": "Every execution of the atomic steps of C59, in which Put, Drop and UnAlias of an index first look and later act and every other call is one step, is an execution of concurrent calls, provided that no call in it panics and no UnAlias keeps a mutex (its last step may), and leaving out String, whose text shows labels: at any two points of it the same calls have been made, the same ones have returned, with the same results, and the repository is in the same state. So the results that concurrent calls can have are exactly those of atomic steps, the slices in the rows of ListAliases included if there is no Rename. Once an UnAlias keeps a mutex the atomic steps allow more than the calls can do.", "quantifier": "all executions of atomic steps, any number of calls (goroutines of the calls interleaved or not)", "why_tests_cant": "That an interleaving is possible needs a schedule for each; tests cannot choose the schedule.", "anchors": ["repos_repo.go:IndexRepo", "repos_repo.go:Put", "repos_repo.go:Drop", "repos_repo.go:UnAlias"]}
{"id": "C97", "title": "Answers depend on documents and aliases only", "statement": "What calls can return from a repository at rest, concurrent calls included, and what they leave behind, depends only on which documents its indices hold under which names and on the aliases: from two repositories with the same contents, however they came about, the same results of the same calls are possible, the slices in the rows of ListAliases included, and the contents are then the same again. The labels of indices, addresses, capacities of slices and unreachable objects make no difference. This holds with the goroutines of Put and Search run one after the other and with all of them interleaved. No mutex may be kept at the start or by the calls, and String, whose text shows labels, is left out; the calls have no Rename, or no UnAlias, in which case the slices in rows are not compared.", "quantifier": "all pairs of states at rest after any concurrent calls, all sets and interleavings of later calls and their results", "why_tests_cant": "A test has one history and its own repository; that two histories leave repositories that no set of concurrent calls can tell apart is about all pairs of histories and all interleavings.", "anchors": ["repos_repo.go:IndexRepo", "repos_repo.go:Put", "repos_repo.go:Alias", "repos_repo.go:ListAliases"]}
{"id": "C98", "title": "The mutexes order conflicting accesses", "statement": "In every execution of concurrent calls, any two accesses of different calls to the same part of the repository (index map and indices, alias map, backing arrays of aliases), one of them a write, are ordered by the happens-before relation of Go's memory model: the calls' own order together with Unlock before later Lock and RLock, and RUnlock before later Lock, of the same mutex. (False for a Rename and an UnAlias, whose accesses to the alias table nothing orders. It holds of every other pair, of all accesses to index map and indices, and for sets of methods exactly if the set lacks one of Put, Rename and UnAlias.)", "quantifier": "all executions of any number of concurrent calls, all pairs of accesses in them, however far apart", "why_tests_cant": "Whether accesses are ordered is about all events between them; a race detector checks the executions it happens to see and forgets old accesses.", "anchors": ["repos_repo.go:IndexRepo", "repos_repo.go:Rename", "repos_repo.go:UnAlias"]}
{"id": "C99", "title": "What goroutines started by Put and Search access is ordered", "statement": "In every execution, with the goroutines that Put and Search start interleaved with everything else, any two accesses of different goroutines to the same variable (index map, an index, the result of a Search), one of them a write, are ordered by happens-before: program order, go before the goroutine, the goroutine before wg.Wait returns, rl.Unlock before later rl.Lock, and the mutexes of the repository. For the alias table this holds too, except between a Rename and an UnAlias. A Put through an alias that names an index twice, whose goroutines would write the same index, is represented as ending in a failure; without it, and without unordered accesses, are exactly the sets of methods that lack Put, or Rename, or both UnAlias and Alias.", "quantifier": "all executions of any number of concurrent calls with any interleaving of the goroutines, all pairs of accesses", "why_tests_cant": "Needs a chain of synchronization through a join, two mutex operations and a fork, in all interleavings; a race detector sees single schedules.", "anchors": ["repos_repo.go:Put", "repos_repo.go:Search", "repos_repo.go:Rename", "repos_repo.go:UnAlias"]}
{"id": "C100", "title": "Search engines work with every implementation of Indexer", "statement": "Indexer is an exported interface, and a caller may pass an index of their own to an engine. Whatever it returns, LinearSearch only finds documents at positions listed under every token, in the order of the first list; if the lists are sorted (repetitions allowed) it finds each position as many times as all lists have it, and panics exactly if a position listed under every token has no document. HitsSearch groups the documents listed under the tokens by hash, and panics exactly if a document listed under a token or below the length does not exist. It never matters whether an empty list is nil. If documents exist below the length and lists are strictly increasing positions below the length, LinearSearch is right, HitsSearch finds the same ordered by ID when hashes are distinct, and some MemoryIndex gives the same results with every engine. Without one of these conditions the engines lose, repeat or invent documents, disagree, or panic.", "quantifier": "all indexes (any length, any lists, any documents), all queries, all sorting algorithms that sort", "why_tests_cant": "The test suite only searches memory indexes; the claim ranges over all implementations of an interface.", "anchors": ["search_search.go:Indexer", "search_linear_search.go:LinearSearch", "search_hits_search.go:HitsSearch", "search_noop_search.go:NoopAllSearch"]}
{"id": "C101", "title": "The repository works with every implementation of Index", "statement": "NewIndexRepo takes a Builder, and the repository uses indexes only through the interface Index (Put, Search). With any implementation, and any interleaving of calls, the repository does to names, aliases, mutexes and calls what it does with memory indexes. Two implementations can be exchanged unnoticed exactly if indexes with the same name and the same documents, at least one, answer every search alike. While a call is about to Put to an index, no other call is about to Put to or Search any index, whereas Searches of one index overlap; an index is never searched before its first document; it has received exactly requests of Put calls. Panics and deadlocks are the same for every implementation. The Index that Put returns is ignored: with an implementation that returns a changed copy every document is lost.", "quantifier": "all implementations (any type of state, any answers), any number of concurrent calls, all interleavings", "why_tests_cant": "The test suite uses the memory index only; the claim ranges over all implementations of an interface and all interleavings.", "anchors": ["index_index.go:Index", "index_index.go:Builder", "repos_repo.go:NewIndexRepo", "repos_repo.go:Put", "repos_repo.go:Search"]}
{"id": "C102", "title": "Hit counts do not overflow", "statement": "HitsSearch counts hits in an int, and however many documents and tokens there are the counts, and so the results, are those of unbounded numbers. (False for every width: hits of copies of one ID are added up, so 50000 copies and a query of 50000 words overflow 32 bits, the count is negative and nothing is found although every document matches. The counts are right exactly if no ID is met 2^(w-1) times; in particular if IDs are distinct, or if documents times tokens is less than 2^(w-1).)", "quantifier": "all widths of int, all indexes, all queries, any sort", "why_tests_cant": "Takes more than two thousand million increments on 32 bits.", "anchors": ["search_hits_search.go:HitsSearch", "search_result.go:SearchResult"]}
{"id": "C103", "title": "A copy of an index is a snapshot", "statement": "MemoryIndex is an exported struct, and a copy (c := *mi) answers every search as the index did at that moment, whatever is Put to the index afterwards. (False: slices and maps are references. The copy keeps its documents but gets the new postings, so that a LinearSearch of it panics exactly if a new document has all the tokens, a HitsSearch exactly if one has any of them; otherwise both find what they found. If something is Put to both, both new documents are filed under the tokens of both, and the one of the index is overwritten by the one of the copy exactly if its array had room. A copy whose Docs and InvertedIndex are replaced by copies of their contents is a snapshot.) Assigning to the exported fields makes an index that Put could have made exactly if the lists are not empty, increasing and within the documents, and one that can be searched without a panic exactly if they are within the documents; a Put with a nil InvertedIndex panics after it has appended the document.", "quantifier": "all programs that make, copy, assign to and Put to any number of index variables, all capacities of new arrays, all queries", "why_tests_cant": "Whether a copy is hit depends on spare capacity, on which variable is written first and on the words of later queries; tests never copy an index.", "anchors": ["index_memory_index.go:MemoryIndex", "index_memory_index.go:MemoryIndex.Put"]}
{"id": "C104", "title": "A panic of the user's tokenizer or builder can be recovered from", "statement": "A call of Put or Search in which the tokenizer or the index builder supplied by the user panics, and whose caller recovers, leaves the repository exactly as it was before the call. (False of Put, true of Search. Put has no deferred Unlock: after a recovered panic of the builder or of the tokenizer it keeps the index mutex for writing for ever, and if it was the tokenizer a new index without documents has been registered. From then on every call blocks but HasAlias, ListAliases and UnAlias without an index. A Put of a name that exists, and a Search of several indices, call the tokenizer in goroutines of their own, where a panic cannot be recovered and ends the process.)", "quantifier": "all builders and tokenizers that panic on any names and texts, all repository states, all documents, queries and engines; for what follows a panicked Put also all interleavings of any number of concurrent calls", "why_tests_cant": "no test has a tokenizer or a builder that panics, and that no later call ever returns is not observable", "anchors": ["repos_repo.go:IndexRepo.Put", "repos_repo.go:IndexRepo.Search", "index_memory_index.go:MemoryIndex.Put", "index_memory_index.go:MemoryIndex.Search"]}
{"id": "C105", "title": "An index can be saved as JSON and loaded again", "statement": "The exported fields of MemoryIndex and Doc have JSON tags; an index that is saved with json.Marshal and loaded with json.Unmarshal into an index made by NewMemoryIndex with the same tokenizer answers every search, with every engine, as the original does, also after further Puts. (False: bytes that are not UTF-8 come back as U+FFFD, so names and contents change, tokens are no longer found, and of tokens that become equal one posting list remains. It holds exactly if all names, contents and tokens are UTF-8; the tokens always are with a tokenizer that does not keep U+FFFD and lower-case and stop-word filters. Loading into an index that is in use replaces its documents but keeps its tokens: searching for such a token panics or finds documents that do not have it.)", "quantifier": "all tokenizers, all lists of documents saved, put later, and held by the receiver, all orders in which the map is written, all engines and queries", "why_tests_cant": "no test saves an index; that every search by every engine gives the same has to hold for all documents, and the failures need malformed text or a receiver in use", "anchors": ["index_memory_index.go:MemoryIndex", "entities_doc.go:Doc", "index_memory_index.go:MemoryIndex.Put", "index_memory_index.go:MemoryIndex.Search"]}
{"id": "C106", "title": "A document is found by its content however its request was made", "statement": "Put anywhere into any index, a document is found by searching for its content, whether its request was made by a constructor or as a literal, and whatever was assigned to the exported fields since. (False: the text that is indexed is the unexported field statement, fixed by the constructor and empty in a literal; assigning to Content changes what is shown, not what is found. It holds exactly if all tokens of the content are tokens of the text given to the constructor, in particular for NewDocRequest and NewDocRequestWithMime without assignments to Content. A literal is stored but filed under no token. Every DocRequest value can be made outside the package.)", "quantifier": "all tokenizers, all ways to make a request and assign to its fields, all other documents before and after", "why_tests_cant": "the tests make every request with a constructor", "anchors": ["entities_request.go:DocRequest", "entities_request.go:NewDocRequest", "entities_request.go:NewDocRequestWith", "entities_request.go:NewDocRequestWithMime", "index_memory_index.go:MemoryIndex.Put"]}
{"id": "C107", "title": "An index works however it was made", "statement": "Put and Search of a MemoryIndex, with any engine of the package, never panic, whether it was made by NewMemoryIndex or as a literal, and whatever was assigned to its exported fields or loaded into it. (False: a value works exactly if it has a tokenizer, has a map, unless its tokenizer never gives a token, and files under tokens only documents that there are; Put preserves this. Literals never get a tokenizer: all their Puts and Searches panic, though the engines can be called with them directly, also after loading. A Put that panics because the map is nil has stored its document, which is filed nowhere from then on.)", "quantifier": "all ways to make an index, all histories of assignments, Puts (their panics recovered) and loads, all requests, queries and package engines", "why_tests_cant": "the tests make every index with NewMemoryIndex and assign to no field", "anchors": ["index_memory_index.go:MemoryIndex", "index_memory_index.go:NewMemoryIndex", "index_memory_index.go:MemoryIndex.Put", "index_memory_index.go:MemoryIndex.Search"]}
