import Verif.Model.Repo
import Verif.Model.StopWordsTable
/-!
# The program of the README
-/
namespace Visigoth

/-- The analyzer of the usage example (README.md:66-72; the same pipeline as
index_memory_index_test.go:10-16). -/
def readmePipeline (isNumber isLetter : Rune → Bool) (uni : Rune → Rune) (stem : Str → Bool → Str) : Tokenizer :=
  (newTokenizationPipeline (newKeepAlphanumericTokenizer isNumber isLetter).tokenize
    [lowerCaseFilter uni, stopWordsFilter spanishStopWords, spanishStemmerFilter stem true]).tokenize

/-- The documents of the usage example (README.md:81-83). -/
def readmeDocs : List DocRequest :=
  [newDocRequest "java-course".toUTF8.toList "Curso de programación en Java".toUTF8.toList,
   newDocRequest "go-course".toUTF8.toList "Curso de programación en Go".toUTF8.toList,
   newDocRequest "python-course".toUTF8.toList "Curso de programación en Python".toUTF8.toList]

/-- The calls of the usage example (README.md:81-91 and :50). -/
def readmeOps (sort : List SearchResult → List SearchResult) : List Op :=
  readmeDocs.map (Op.put "courses".toUTF8.toList) ++
    [.search "courses".toUTF8.toList "programación java".toUTF8.toList (hitsSearch sort)]

end Visigoth
