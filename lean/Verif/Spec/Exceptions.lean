import Verif.Model.Exceptions

/-!
# Specification: what an exception tells about another one
-/

namespace BB.Spec

open BB

/-- The text of the first exception ends with the class and the text of the second. -/
def Reports (e orig : Exc) : Prop := (orig.cls ++ ": " ++ orig.text).toList <:+ e.text.toList

/-- Two exceptions look the same to those who print or catch them. -/
structure SameToUser (e e' : Exc) : Prop where
  cls : e'.cls = e.cls
  text : e'.text = e.text
  message : e'.message = e.message
  derived : e'.derived = e.derived

end BB.Spec
