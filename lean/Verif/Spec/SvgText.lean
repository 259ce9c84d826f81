import Verif.Model.MakePath
import Verif.Model.DecLex

/-! # Specification: reading an SVG text -/

namespace River

/-- The tags of a text in order: what stands between a `<` and the next `>`. -/
def tags : List Char → List (List Char)
  | [] => []
  | c :: t => if c = '<' then t.takeWhile (· ≠ '>') :: tags t else tags t

/-- The value of an attribute in a tag: what stands between the first ` name="` and the next `"`. -/
def attr (name : List Char) : List Char → Option (List Char)
  | [] => none
  | c :: t =>
    if (' ' :: (name ++ ['=', '"'])).isPrefixOf (c :: t) then some ((t.drop (name.length + 2)).takeWhile (· ≠ '"')) else attr name t

/-- Is the tag that of an element of this name? -/
def isTag (name tag : List Char) : Bool := (name ++ [' ']).isPrefixOf tag

/-- The paths that `make_path` reads from the data of a `path` element: the letters of its own syntax are lower case. -/
def readData (d : List Char) : Option (List (Path ℚ)) := MakePath.makePath DecLex.decLex (d.map Char.toLower)

end River
