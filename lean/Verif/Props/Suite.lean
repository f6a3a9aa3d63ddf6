import Verif.Props.Repo
import Verif.Props.Stemmer
import Verif.Model.StopWordsTable
/-!
# The package's own test suite, replayed on the model

These are tests of the model, not proofs of properties: every test case of the `_test.go` files of
the repository is evaluated on the model and must give what the Go test asserts.  Each example cites
the test it replays.  `unicode.IsLetter`/`IsNumber`/`ToLower` are instantiated for the characters the
tests use, the external Snowball stemmer by the identity.
-/
namespace Visigoth
namespace Suite

def isLetter (r : Rune) : Bool :=
  (0x41 ≤ r && r ≤ 0x5A) || (0x61 ≤ r && r ≤ 0x7A) || r == 0xF3
def isNumber (r : Rune) : Bool := 0x30 ≤ r && r ≤ 0x39
def lower (r : Rune) : Rune := if 0x41 ≤ r && r ≤ 0x5A then r + 0x20 else r

/-- The analyzer of `index_memory_index_test.go:10-16` and of the search tests. -/
def analyzer : Tokenizer :=
  (newTokenizationPipeline (newKeepAlphanumericTokenizer isNumber isLetter).tokenize
    [lowerCaseFilter lower, stopWordsFilter spanishStopWords, spanishStemmerFilter (fun w _ => w) true]).tokenize

/-- The pipeline of `newTestIndexRepo` (repos_repo_test.go:9-15). -/
def repoTok : Tokenizer :=
  (newTokenizationPipeline (newKeepAlphanumericTokenizer isNumber isLetter).tokenize
    [lowerCaseFilter lower]).tokenize

def utf (s : String) : Str := s.toUTF8.toList

/-- An index holding the given documents (ID, content). -/
def indexOf (docs : List (String × String)) : MemoryIndex :=
  buildIndex analyzer (utf "testing") (docs.map fun d => newDocRequest (utf d.1) (utf d.2))

/-- IDs and hits of the results of a search. -/
def found (docs : List (String × String)) (q : String) (e : Engine) : Option (List (Str × Nat)) :=
  ((indexOf docs).search plainCopy analyzer (utf q) e).map fun rs =>
    rs.map fun r => (r.document.id, r.hits)

/-- Insertion into a sorted list, and insertion sort, so that the tests can be evaluated. -/
def insert (x : SearchResult) : List SearchResult → List SearchResult
  | [] => [x]
  | y :: ys => if less y x then y :: insert x ys else x :: y :: ys
def sort : List SearchResult → List SearchResult
  | [] => []
  | x :: xs => insert x (sort xs)

def hits : Engine := hitsSearch sort

/-! ## index_memory_index_test.go -/

-- TestIndex_Search_One (lines 9-34)
example : found [("/course/java", "Curso de programación en Java (León)"),
    ("/course/php", "Curso de programación en PHP (León)")] "java" hits
    = some [(utf "/course/java", 1)] := by decide +kernel
-- TestIndex_Search_TwoDocuments (lines 36-65)
example : found [("/course/java", "Curso de programacion en Java (León)"),
    ("/course/php", "Curso de programacion en PHP (León)")] "programacion" hits
    = some [(utf "/course/java", 1), (utf "/course/php", 1)] := by decide +kernel
-- TestIndex_Search_Deterministic (lines 67-110)
example : found [("java-course", "programming course java"),
    ("python-course", "programming course python"), ("go-course", "programming course golang"),
    ("js-course", "programming course javascript")] "programming" hits
    = some [(utf "go-course", 1), (utf "java-course", 1), (utf "js-course", 1),
        (utf "python-course", 1)] := by decide +kernel

/-! ## search_hits_search_test.go and search_linear_search_test.go -/

def single := [("doc1", "programacion en java"), ("doc2", "programacion en php"), ("doc3", "desarrollo web")]
-- Single token search (hits:19-34, linear:81-96)
example : found single "programacion" hits = some [(utf "doc1", 1), (utf "doc2", 1)] := by decide +kernel
example : found single "programacion" linearSearch = some [(utf "doc1", 1), (utf "doc2", 1)] := by
  decide +kernel

def multiple := [("doc1", "curso de programacion en java"), ("doc2", "curso de programacion en php"),
  ("doc3", "tutorial de java para principiantes"), ("doc4", "desarrollo web frontend")]
-- Multiple token search - AND logic (hits:36-62, linear:98-124)
example : found multiple "programacion java" hits = some [(utf "doc1", 2)] := by decide +kernel
example : found multiple "programacion java" linearSearch = some [(utf "doc1", 2)] := by decide +kernel

def counting := [("doc1", "java java java"), ("doc2", "java programming java"),
  ("doc3", "programming tutorial"), ("doc4", "python programming")]
-- Hit counting and threshold filtering (hits:64-102)
example : (found counting "java" hits).map List.length = some 2 := by decide +kernel
example : found counting "java programming" hits = some [(utf "doc2", 2)] := by decide +kernel

-- Relevance sorting by hit count (hits:104-139)
example : found [("doc1", "java programming guide"), ("doc2", "java programming tutorial java"),
    ("doc3", "advanced java programming concepts")] "java programming" hits
    = some [(utf "doc1", 2), (utf "doc2", 2), (utf "doc3", 2)] := by decide +kernel

-- Empty query (hits:141-147, linear:137-144)
example : found [("doc1", "some content")] "" hits = some [] := by decide +kernel
example : found [("doc1", "some content")] "" linearSearch = some [] := by decide +kernel

-- Non-existent token (hits:149-155, linear:146-153)
example : found [("doc1", "programacion en java")] "python" hits = some [] := by decide +kernel
example : found [("doc1", "programacion en java")] "python" linearSearch = some [] := by decide +kernel

-- Partial match returns no results (hits:157-164, linear:126-135)
example : found [("doc1", "programacion en php"), ("doc2", "desarrollo java")] "programacion java" hits
    = some [] := by decide +kernel
example : found [("doc1", "programacion en php"), ("doc2", "desarrollo java")] "programacion java"
    linearSearch = some [] := by decide +kernel

def three := [("doc1", "curso completo de programacion en java"), ("doc2", "curso de programacion en php"),
  ("doc3", "curso completo de desarrollo"), ("doc4", "programacion completo tutorial")]
-- Three token search (hits:166-189, linear:155-178)
example : found three "curso completo programacion" hits = some [(utf "doc1", 3)] := by decide +kernel
example : found (three.take 3) "curso completo programacion" linearSearch = some [(utf "doc1", 3)] := by
  decide +kernel

-- Deterministic results (hits:191-225, linear:180-212): `found` is a function; the order is by ID
example : found [("doc1", "programacion java"), ("doc2", "java programacion"),
    ("doc3", "curso de programacion en java")] "programacion java" hits
    = some [(utf "doc1", 2), (utf "doc2", 2), (utf "doc3", 2)] := by decide +kernel

def comparison := [("doc1", "programacion java"), ("doc2", "programacion php"), ("doc3", "java tutorial"),
  ("doc4", "advanced java programming")]
-- HitsSearch vs LinearSearch comparison (hits:227-258, linear:214-251)
example : found comparison "programacion java" hits = some [(utf "doc1", 2)] ∧
    found comparison "programacion java" linearSearch = some [(utf "doc1", 2)] := by decide +kernel

-- Index state preservation (hits:260-280): `search` does not return an index
example : (found [("doc1", "test document one"), ("doc2", "test document two")] "test" hits).map List.length
    = some 2 := by decide +kernel

-- No phantom documents appear (hits:282-311)
example : found [("course_java", "Curso de programacion en Java"), ("course_php", "Curso de programacion en PHP"),
    ("course_go", "Curso de programacion en Go")] "programacion" hits
    = some [(utf "course_go", 1), (utf "course_java", 1), (utf "course_php", 1)] := by decide +kernel

-- Test_intersection (linear:9-69); nil and empty slices are the empty list
example : [([], []), ([0, 1, 2, 3, 4, 5], []), ([], [0, 1, 2, 3, 4, 5]),
    ([0, 1, 2, 3, 4, 5], [0, 1, 2, 3, 4, 5]), ([0, 1, 2, 3, 4, 5], [0, 5, 6]), ([0], [1]), ([0], [0])].map
      (fun p => intersection p.1 p.2)
    = [[], [], [], [0, 1, 2, 3, 4, 5], [0, 5], [], [0]] := by decide +kernel

/-! ## stemmer_spanish_snowball_test.go -/

-- TestRV (lines 8-72): an empty R2 may be nil
example : ["macho", "oliva", "trabajo", "áureo"].map (fun w =>
      ((r1r2rv (utf w)).1, ((r1r2rv (utf w)).2.1).getD [], (r1r2rv (utf w)).2.2))
    = [(some (utf "ho"), utf "", some (utf "ho")), (some (utf "iva"), utf "a", some (utf "va")),
       (some (utf "ajo"), utf "o", some (utf "bajo")), (some (utf "eo"), utf "", some (utf "eo"))] := by
  decide +kernel

/-! ## repos_repo_test.go -/

def testCfg : Cfg := { tok := repoTok, cp := plainCopy }

/-- What the caller of a sequence of calls on `newTestIndexRepo()` sees. -/
def session (ops : List Op) : Option (List SRet) :=
  match runCalls testCfg (calls ops) newIndexRepo with
  | .ok rets _ => some rets
  | _ => none

/-- The last thing the caller sees. -/
def last (ops : List Op) : Option SRet := (session ops).bind List.getLast?

def pulgar : Op := .put (utf "dedos") (newDocRequest (utf "pulgar") (utf "este fue a por huevos"))
def naranjito : Op := .put (utf "colores") (newDocRequest (utf "naranjito") (utf "este es del 92"))
def latest : Op := .alias (utf "dedos:latest") (utf "dedos")

/-- `err == nil`. -/
def noError : Option SRet → Bool
  | some (.results _) => true
  | _ => false

/-- IDs of the documents of a result. -/
def ids : Option SRet → List Str
  | some (.results l) => l.map fun r => r.document.id
  | _ => []

-- Test_IndexRepo_Alias_Index_Exists (lines 17-25)
example : last [pulgar, naranjito, latest] = some (.bool true) := by decide +kernel
-- Test_IndexRepo_Alias_Index_DoesNotExist (lines 27-35)
example : last [pulgar, naranjito, .alias (utf "dedos:latest") (utf "sabores")] = some (.bool false) := by
  decide +kernel
-- Test_IndexRepo_UnAlias_All_Alias_Exists (lines 37-45)
example : last [pulgar, latest, .unAlias (utf "dedos:latest") []] = some (.bool true) := by decide +kernel
-- Test_IndexRepo_UnAlias_All_Alias_DoesNotExist (lines 47-54)
example : last [pulgar, .unAlias (utf "dedos:latest") []] = some (.bool false) := by decide +kernel
-- Test_IndexRepo_Search_By_Alias (lines 56-64)
example : noError (last [pulgar, latest, .search (utf "dedos:latest") (utf "huevos") noopAllSearch]) = true := by
  decide +kernel
-- Test_IndexRepo_Search_By_AliasSeveralPointedIndices (lines 66-87)
example : ids (last [pulgar,
      .put (utf "comida") (newDocRequest (utf "huevos") (utf "los huevos son cuerpos redondeados")),
      .alias (utf "huevos:latest") (utf "dedos"), .alias (utf "huevos:latest") (utf "comida"),
      .search (utf "huevos:latest") (utf "huevos") hits])
    = [utf "pulgar", utf "huevos"] := by decide +kernel
-- Test_IndexRepo_Put_By_Alias (lines 89-97)
example : noError (last [pulgar, latest,
    .put (utf "dedos:latest") (newDocRequest (utf "indice") (utf "y este los casco")),
    .search (utf "dedos:latest") (utf "casco") noopAllSearch]) = true := by decide +kernel
-- Test_IndexRepo_Rename_IndexExists (lines 99-109)
example : session [pulgar, latest, .rename (utf "dedos") (utf "dedos_v2")]
    = some [.unit, .bool true, .bool true] := by decide +kernel
example : noError (last [pulgar, latest, .rename (utf "dedos") (utf "dedos_v2"),
    .search (utf "dedos:latest") (utf "huevos") noopAllSearch]) = true := by decide +kernel
-- Test_IndexRepo_Rename_IndexDoesNotExist (lines 111-118)
example : last [pulgar, latest, .rename (utf "deditos") (utf "dedos_v2")] = some (.bool false) := by
  decide +kernel
-- Test_IndexRepo_HotSwap (lines 120-130)
example : noError (last [pulgar, latest,
    .put (utf "dedos_v2") (newDocRequest (utf "menique") (utf "este los zampo")),
    .alias (utf "dedos:latest") (utf "dedos_v2"),
    .search (utf "dedos:latest") (utf "zampo") noopAllSearch]) = true := by decide +kernel
-- Test_IndexRepo_Drop_IndexExists (lines 132-141)
example : session [pulgar, .drop (utf "dedos"), .has (utf "dedos")]
    = some [.unit, .bool true, .bool false] := by decide +kernel
-- Test_IndexRepo_Drop_IndexDoesNotExist (lines 143-148)
example : session [.drop (utf "dedos")] = some [.bool false] := by decide +kernel
-- Test_IndexRepo_Drop_IndexWithAliasExists_ShouldDropAlias (lines 150-160)
example : session [pulgar, latest, .drop (utf "dedos"), .hasAlias (utf "dedos:latest")]
    = some [.unit, .bool true, .bool true, .bool false] := by decide +kernel
-- Test_IndexRepo_Search_Deterministic (lines 162-196)
example : ids (last [
      .put (utf "courses") (newDocRequest (utf "java-course") (utf "programming course java")),
      .put (utf "courses") (newDocRequest (utf "python-course") (utf "programming course python")),
      .put (utf "courses") (newDocRequest (utf "go-course") (utf "programming course golang")),
      .put (utf "courses") (newDocRequest (utf "js-course") (utf "programming course javascript")),
      .search (utf "courses") (utf "programming") hits])
    = [utf "go-course", utf "java-course", utf "js-course", utf "python-course"] := by decide +kernel

end Suite
end Visigoth
