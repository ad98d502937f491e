import Verif.Num.Spec

/-!
# Model of the primitives of prim_val declarations, compiler/Primdec.sml and Fnlib.sml

Names are lists of character codes. The primitives are those of compiler/Prim.sml that occur in the table.
-/
namespace Mosml.Primdec
open Mosml.Num (chars)

abbrev Str := List Nat

/-- Prim.sml:50-57 prim_test (without PTnoteqimm) -/
inductive PrimTest where
  | PTeq | PTnoteq | PTlt | PTle | PTgt | PTge
deriving DecidableEq, Repr

/-- Prim.sml:41-48 bool_test (those in the table) -/
inductive Test where
  | Peq_test | Pnoteq_test
  | Pint_test (t : PrimTest) | Pfloat_test (t : PrimTest) | Pstring_test (t : PrimTest)
deriving DecidableEq, Repr

/-- Prim.sml:37-39 float_primitive -/
inductive FloatPrim where
  | Pfloatofint | Psmladdfloat | Psmldivfloat | Psmlmulfloat | Psmlnegfloat | Psmlsubfloat
deriving DecidableEq, Repr

/-- Prim.sml:7-35 primitive (those in the table) -/
inductive Prim where
  | Ptest (t : Test) | Pfloatprim (f : FloatPrim) | Pfield (n : Nat) | Psetfield (n : Nat)
  | Paddint | Pandint | Pdivint | Pgetstringchar | Pgetvectitem | Pidentity
  | Pintoffloat | Pmakerefvector | Pmakevector | Pmodint | Pmulint | Pnot
  | Porint | Praise | Psetstringchar | Psetvectitem | Pshiftleftint | Pshiftrightintsigned
  | Pshiftrightintunsigned | Psmladdint | Psmldivint | Psmlmodint | Psmlmulint | Psmlnegint
  | Psmlpredint | Psmlquotint | Psmlremint | Psmlsubint | Psmlsuccint | Pstringlength
  | Psubint | Ptag_of | Pupdate | Pvectlength | Pxorint
deriving DecidableEq, Repr

/-- Primdec.sml:8-97 primitive_names -/
def primitiveNames : List (Str × Prim) := [
  (chars "!=", .Ptest .Pnoteq_test),
  (chars "*int", .Psmlmulint),
  (chars "*intunsig", .Pmulint),
  (chars "*real", .Pfloatprim .Psmlmulfloat),
  (chars "+int", .Psmladdint),
  (chars "+intunsig", .Paddint),
  (chars "+real", .Pfloatprim .Psmladdfloat),
  (chars "-int", .Psmlsubint),
  (chars "-intunsig", .Psubint),
  (chars "-real", .Pfloatprim .Psmlsubfloat),
  (chars "/", .Pfloatprim .Psmldivfloat),
  (chars "<=int", .Ptest (.Pint_test .PTle)),
  (chars "<=real", .Ptest (.Pfloat_test .PTle)),
  (chars "<=string", .Ptest (.Pstring_test .PTle)),
  (chars "<>int", .Ptest (.Pint_test .PTnoteq)),
  (chars "<>real", .Ptest (.Pfloat_test .PTnoteq)),
  (chars "<>string", .Ptest (.Pstring_test .PTnoteq)),
  (chars "<int", .Ptest (.Pint_test .PTlt)),
  (chars "<real", .Ptest (.Pfloat_test .PTlt)),
  (chars "<string", .Ptest (.Pstring_test .PTlt)),
  (chars "==", .Ptest .Peq_test),
  (chars "=int", .Ptest (.Pint_test .PTeq)),
  (chars "=real", .Ptest (.Pfloat_test .PTeq)),
  (chars "=string", .Ptest (.Pstring_test .PTeq)),
  (chars ">=int", .Ptest (.Pint_test .PTge)),
  (chars ">=real", .Ptest (.Pfloat_test .PTge)),
  (chars ">=string", .Ptest (.Pstring_test .PTge)),
  (chars ">int", .Ptest (.Pint_test .PTgt)),
  (chars ">real", .Ptest (.Pfloat_test .PTgt)),
  (chars ">string", .Ptest (.Pstring_test .PTgt)),
  (chars "and", .Pandint),
  (chars "div", .Psmldivint),
  (chars "divunsig", .Pdivint),
  (chars "field0", .Pfield 0),
  (chars "field1", .Pfield 1),
  (chars "field10", .Pfield 10),
  (chars "field11", .Pfield 11),
  (chars "field12", .Pfield 12),
  (chars "field2", .Pfield 2),
  (chars "field3", .Pfield 3),
  (chars "field4", .Pfield 4),
  (chars "field5", .Pfield 5),
  (chars "field6", .Pfield 6),
  (chars "field7", .Pfield 7),
  (chars "field8", .Pfield 8),
  (chars "field9", .Pfield 9),
  (chars "get_nth_char", .Pgetstringchar),
  (chars "get_vect_item", .Pgetvectitem),
  (chars "identity", .Pidentity),
  (chars "int_of_float", .Pintoffloat),
  (chars "make_ref_vect", .Pmakerefvector),
  (chars "make_vect", .Pmakevector),
  (chars "mod", .Psmlmodint),
  (chars "modunsig", .Pmodint),
  (chars "not", .Pnot),
  (chars "or", .Porint),
  (chars "pred", .Psmlpredint),
  (chars "quot", .Psmlquotint),
  (chars "raise", .Praise),
  (chars "real_of_int", .Pfloatprim .Pfloatofint),
  (chars "rem", .Psmlremint),
  (chars "set_nth_char", .Psetstringchar),
  (chars "set_vect_item", .Psetvectitem),
  (chars "setfield0", .Psetfield 0),
  (chars "setfield1", .Psetfield 1),
  (chars "setfield10", .Psetfield 10),
  (chars "setfield11", .Psetfield 11),
  (chars "setfield12", .Psetfield 12),
  (chars "setfield2", .Psetfield 2),
  (chars "setfield3", .Psetfield 3),
  (chars "setfield4", .Psetfield 4),
  (chars "setfield5", .Psetfield 5),
  (chars "setfield6", .Psetfield 6),
  (chars "setfield7", .Psetfield 7),
  (chars "setfield8", .Psetfield 8),
  (chars "setfield9", .Psetfield 9),
  (chars "shift_left", .Pshiftleftint),
  (chars "shift_right_signed", .Pshiftrightintsigned),
  (chars "shift_right_unsigned", .Pshiftrightintunsigned),
  (chars "string_length", .Pstringlength),
  (chars "succ", .Psmlsuccint),
  (chars "tag_of", .Ptag_of),
  (chars "update", .Pupdate),
  (chars "vect_length", .Pvectlength),
  (chars "xor", .Pxorint),
  (chars "~int", .Psmlnegint),
  (chars "~real", .Pfloatprim .Psmlnegfloat)]

/-- comparison of strings by the codes of their characters -/
def lt : Str → Str → Bool
  | [], [] => false
  | [], _ :: _ => true
  | _ :: _, [] => false
  | a :: x, b :: y => if a < b then true else if b < a then false else lt x y

/-- Fnlib.sml:110-121 binlookup, the function search; `none` is the exception Subscript (also that of Vector.sub). The first
argument bounds the number of steps. -/
def search {α : Type} (name : Str) (vec : List (Str × α)) : Nat → Int → Int → Option α
  | 0, _, _ => none
  | n + 1, a, b =>
    if a > b then none
    else
      let i := (a + b) / 2
      if i < 0 then none
      else
        match vec[i.toNat]? with
        | none => none
        | some (key, v) =>
          if lt name key then search name vec n a (i - 1)
          else if lt key name then search name vec n (i + 1) b
          else some v

/-- Fnlib.sml:110-121 binlookup -/
def binlookup {α : Type} (name : Str) (vec : List (Str × α)) : Option α :=
  search name vec (vec.length + 1) 0 (vec.length - 1)

/-- Smlprim.sml: the results of findPrimitive -/
inductive SMLPrim where
  | MLPgv (qual id : Str)
  | MLPprim (arity : Int) (p : Prim)
  | MLPccall (arity : Int) (name : Str)
deriving DecidableEq, Repr

/-- Primdec.sml:101-107 findPrimitive -/
def findPrimitive (arity : Int) (name : Str) : SMLPrim :=
  if arity = 0 then .MLPgv (chars "General") name
  else
    match binlookup name primitiveNames with
    | some p => .MLPprim arity p
    | none => .MLPccall arity name

end Mosml.Primdec
