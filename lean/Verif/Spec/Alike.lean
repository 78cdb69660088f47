import Verif.Model.Dom
/-!
# Documents that mean the same

For C98.  Two documents mean the same if they have the same texts at the same places, in elements with names that mean the same, with the same values of
the attributes that are used.  Nothing here depends on how the converter works.
-/

namespace Verif.Spec
open Verif

/-- Elements that mean the same. -/
def synonyms : List (List Bytes) :=
  [[b!"strong", b!"b"], [b!"em", b!"i"], [b!"del", b!"s", b!"strike"], [b!"kbd", b!"samp", b!"tt", b!"var"]]

/-- The elements that have a meaning in Markdown, or that are left out, or that stand for something without content. The others only differ by
whether they are blocks. -/
def specialNames : List Bytes := synonyms.flatten ++
  [b!"#document", b!"#text", b!"#comment", b!"#doctype",
   b!"html", b!"head", b!"body", b!"span", b!"div", b!"blockquote", b!"ul", b!"ol", b!"li", b!"pre", b!"code",
   b!"h1", b!"h2", b!"h3", b!"h4", b!"h5", b!"h6", b!"a", b!"img", b!"br", b!"hr", b!"table", b!"thead", b!"tr", b!"th", b!"td", b!"caption",
   b!"script", b!"style", b!"link", b!"meta", b!"iframe", b!"noscript", b!"input", b!"textarea",
   b!"area", b!"base", b!"col", b!"command", b!"embed", b!"keygen", b!"param", b!"track", b!"wbr"]

/-- Two names mean the same: both are blocks or both are not, and they are synonyms or both have no special meaning. -/
def MeansSame (T : NameTables) (m n : Bytes) : Prop :=
  m = n ∨ T.isBlock m = T.isBlock n ∧ ((∃ g ∈ synonyms, m ∈ g ∧ n ∈ g) ∨ m ∉ specialNames ∧ n ∉ specialNames)

/-- The attributes that are used, for an element with this name. -/
def usedAttributes (name : Bytes) : List Bytes :=
  if name = b!"a" then [b!"href", b!"title"]
  else if name = b!"img" then [b!"src", b!"title", b!"alt"]
  else if name = b!"ol" then [b!"start"]
  else if name = b!"pre" ∨ name = b!"code" then [b!"class"]
  else if name = b!"th" ∨ name = b!"td" then [b!"align", b!"rowspan", b!"colspan"]
  else if name = b!"table" then [b!"role"]
  else []

/-- The value of an attribute: the first one with this key. -/
def valueOf (key : Bytes) : List (Bytes × Bytes) → Option Bytes
  | [] => none
  | (k, v) :: as => if k = key then some v else valueOf key as

mutual
/-- Two documents mean the same. -/
inductive SameMeaning (T : NameTables) : Node → Node → Prop
  | text (d) : SameMeaning T (.text d) (.text d)
  | comment (d) : SameMeaning T (.comment d) (.comment d)
  | doctype (d d') : SameMeaning T (.doctype d) (.doctype d')
  | document {cs cs'} : SameMeanings T cs cs' → SameMeaning T (.document cs) (.document cs')
  | elem {m n a b cs cs'} : MeansSame T m n → (∀ key ∈ usedAttributes m, valueOf key a = valueOf key b) → SameMeanings T cs cs' →
      SameMeaning T (.elem m a cs) (.elem n b cs')
/-- One by one. -/
inductive SameMeanings (T : NameTables) : List Node → List Node → Prop
  | nil : SameMeanings T [] []
  | cons {x y xs ys} : SameMeaning T x y → SameMeanings T xs ys → SameMeanings T (x :: xs) (y :: ys)
end

end Verif.Spec
