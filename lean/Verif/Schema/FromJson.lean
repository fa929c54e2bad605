import Verif.Schema.Props
/-!
# Model of descriptor_from_dict (satella/configuration/schema/from_json.py), C90

Strings are numbers, as in `V`.  The strings that the code looks for have fixed numbers.
-/
namespace Verif.Schema

/-- `''`, /repo/satella/configuration/schema/from_json.py:63 -/
def sEmpty : Nat := 0
/-- `'type'`, /repo/satella/configuration/schema/from_json.py:20 -/
def sType : Nat := 1
/-- `'of'`, /repo/satella/configuration/schema/from_json.py:27 -/
def sOf : Nat := 2
/-- `'default'`, /repo/satella/configuration/schema/from_json.py:54 -/
def sDefault : Nat := 3
/-- `'optional'`, /repo/satella/configuration/schema/from_json.py:57 -/
def sOptional : Nat := 4
/-- `'cast_to'`, /repo/satella/configuration/schema/from_json.py:30 -/
def sCastTo : Nat := 5
/-- `'list'`, /repo/satella/configuration/schema/from_json.py:26 -/
def sList : Nat := 6
/-- `'caster'`, /repo/satella/configuration/schema/from_json.py:29 -/
def sCaster : Nat := 7
/-- `'union'`, /repo/satella/configuration/schema/from_json.py:51 -/
def sUnion : Nat := 8
/-- `'dict'`, /repo/satella/configuration/schema/structs.py:65 -/
def sDict : Nat := 9
/-- `None`, where it is used as the name of a key, /repo/satella/configuration/schema/base.py:57 -/
def noName : Nat := 10

mutual
/-- a schema as Python data, the argument of /repo/satella/configuration/schema/from_json.py:75: strings, dictionaries, lists, classes (by their names), and other values -/
inductive J where
  | str (s : Nat)
  | dict (fs : Fields)
  | arr (l : Js)
  | cls (s : Nat)
  | val (v : V)
/-- the items of a dictionary, in order, /repo/satella/configuration/schema/from_json.py:100 -/
inductive Fields where
  | nil
  | cons (key : Nat) (value : J) (rest : Fields)
/-- the elements of a list, /repo/satella/configuration/schema/from_json.py:52 -/
inductive Js where
  | nil
  | cons (j : J) (rest : Js)
end

mutual
/-- the value itself, as given in `default`, /repo/satella/configuration/schema/from_json.py:56 -/
def J.toV : J → V
  | .str s => .str s
  | .dict fs => .dict fs.toFun
  | .arr l => .list l.toList
  | .cls s => .obj s
  | .val v => v
/-- a dictionary as a function, /repo/satella/configuration/schema/from_json.py:56 -/
def Fields.toFun : Fields → Nat → Option V
  | .nil => fun _ => none
  | .cons k j rest => fun n => if n = k then some j.toV else rest.toFun n
/-- the elements of a list, /repo/satella/configuration/schema/from_json.py:56 -/
def Js.toList : Js → List V
  | .nil => []
  | .cons j rest => j.toV :: rest.toList
end

/-- `value.get(key)`, /repo/satella/configuration/schema/from_json.py:25-57 -/
def Fields.get : Fields → Nat → Option J
  | .nil, _ => none
  | .cons k j rest, n => if n = k then some j else rest.get n

/-- whether a value counts as true, /repo/satella/configuration/schema/structs.py:114 -/
def J.truthy : J → Bool
  | .str s => s != sEmpty
  | .dict .nil => false
  | .dict _ => true
  | .arr .nil => false
  | .arr _ => true
  | .cls _ => true
  | .val .null => false
  | .val (.bool b) => b
  | .val (.int i) => i != 0
  | .val (.str s) => s != sEmpty
  | .val (.list l) => !l.isEmpty
  | .val (.obj _) => true
  | .val (.dict _) => true

/-- the exceptions, /repo/satella/configuration/schema/from_json.py:58, :72 -/
inductive Err where
  | schema | attribute | key | type | importError
deriving DecidableEq

/-- what `_get_descriptor_for` gives: a descriptor with its name set or not and the default if it is optional; None; or an exception, /repo/satella/configuration/schema/from_json.py:62-72 -/
inductive Comp where
  | desc (d : D) (named : Bool) (opt : Option V)
  | pyNone
  | raises (e : Err)

/-- the registered descriptors: `plain` those in PLAIN_ENTRIES, /repo/satella/configuration/schema/registry.py:1-27; `cast` what `cast_to` stands for, /repo/satella/configuration/schema/from_json.py:30-40 -/
structure Reg where
  plain : Nat → Option (V → Made)
  cast : Nat → Option (V → Made)

/-- `_get_descriptor_for_str`, /repo/satella/configuration/schema/from_json.py:10-16.  A name that is not in PLAIN_ENTRIES gives None: there is no KeyError, as nothing is looked up. -/
def forStr (R : Reg) (s : Nat) : Comp :=
  match R.plain s with
  | some m => .desc (.basic m) true none
  | none => .pyNone

/-- `optional` and `default`, /repo/satella/configuration/schema/from_json.py:53-57 and structs.py:114-115 -/
def optOf (fs : Fields) : Option V :=
  let optional := match fs.get sOptional with
    | some j => j.truthy
    | none => (fs.get sDefault).isSome
  if optional then some (match fs.get sDefault with | some j => j.toV | none => .null) else none

/-- `List(of)`, /repo/satella/configuration/schema/structs.py:20-22: None counts as no descriptor -/
def mkList (opt : Option V) : Comp → Comp
  | .desc d _ _ => .desc (.list 0 d) true opt
  | .pyNone => .desc (.list 0 anything) true opt
  | .raises e => .raises e

/-- `Union(*args)`, /repo/satella/configuration/schema/from_json.py:52; None as a descriptor raises TypeError (number 0) when called -/
def mkAlts : List Comp → Option Err × Alts
  | [] => (none, .nil)
  | .desc d _ _ :: l => ((mkAlts l).1, .cons d (mkAlts l).2)
  | .pyNone :: l => ((mkAlts l).1, .cons (.caster (fun _ => .typeError)) (mkAlts l).2)
  | .raises e :: _ => (some e, .nil)

/-- one item of a dictionary of the schema, with what `_get_descriptor_for` gives for its value and, if it is a list, for the elements, /repo/satella/configuration/schema/from_json.py:27, :52, :101 -/
structure Entry where
  key : Nat
  single : Comp
  many : List Comp

/-- the loop of `descriptor_from_dict`, /repo/satella/configuration/schema/from_json.py:100-102, and `Dict(fields)`, /repo/satella/configuration/schema/structs.py:92; None has no attribute `name` -/
def mkKeys : List Entry → Option Err × Bool × Keys
  | [] => (none, false, .nil)
  | e :: l =>
    match e.single with
    | .desc d named opt => ((mkKeys l).1, (mkKeys l).2.1, .cons (if named then e.key else noName) (if named then opt else none) d (mkKeys l).2.2)
    | .pyNone => ((mkKeys l).1, true, (mkKeys l).2.2)
    | .raises x => (some x, false, .nil)

/-- `descriptor_from_dict`, given the items, /repo/satella/configuration/schema/from_json.py:98-104 -/
def mkDict (l : List Entry) : Except Err D :=
  match mkKeys l with
  | (some e, _, _) => .error e
  | (none, true, _) => .error .attribute
  | (none, false, ks) => .ok (.dict ks (fun _ v => v))

/-- an item.  (Part of the model of `_get_descriptor_for_dict`, /repo/satella/configuration/schema/from_json.py:19-59.) -/
def findEntry (l : List Entry) (k : Nat) : Option Entry := l.find? (fun e => e.key == k)

/-- `_get_descriptor_for_dict`, /repo/satella/configuration/schema/from_json.py:19-59.  Not modelled: `expr` of a caster, the arguments of `file_contents`, `of` of a union that is not a list.  All Lists get the number 0. -/
def forDict (R : Reg) (fs : Fields) (entries : List Entry) : Comp :=
  match fs.get sType with
  | none =>
    match mkDict entries with
    | .ok d => .desc d true none
    | .error e => .raises e
  | some (.str t) =>
    if t = sList then
      mkList (optOf fs) (match findEntry entries sOf with | some e => e.single | none => .desc anything false none)
    else if t = sCaster then
      match fs.get sCastTo with
      | some (.str c) =>
        match R.cast c with
        | some f => .desc (.caster f) true (optOf fs)
        | none => .raises .importError
      | _ => .raises .attribute
    else if t = sUnion then
      match mkAlts (match findEntry entries sOf with | some e => e.many | none => []) with
      | (some e, _) => .raises e
      | (none, as) => .desc (.union as) true (optOf fs)
    else if t = sDict then .raises .type
    else
      match R.plain t with
      | some m => .desc (.basic m) true (optOf fs)
      | none => .raises .key
  | some (.dict _) => .raises .type
  | some (.arr _) => .raises .type
  | some _ => .raises .key

mutual
/-- `_get_descriptor_for`, /repo/satella/configuration/schema/from_json.py:62-72 -/
def comp (R : Reg) : J → Comp
  | .str s => if s = sEmpty then .desc anything false none else forStr R s
  | .dict fs => forDict R fs (compFields R fs)
  | .cls s => forStr R s
  | .arr _ => .raises .schema
  | .val _ => .raises .schema
/-- `_get_descriptor_for` for the values of a dictionary, and for their elements if they are lists, /repo/satella/configuration/schema/from_json.py:27, :52, :101 -/
def compFields (R : Reg) : Fields → List Entry
  | .nil => []
  | .cons k j rest => ⟨k, comp R j, compArr R j⟩ :: compFields R rest
/-- `[_get_descriptor_for('', x) for x in value]` for a list, /repo/satella/configuration/schema/from_json.py:52 -/
def compArr (R : Reg) : J → List Comp
  | .arr l => compAll R l
  | _ => []
/-- the elements of a list, /repo/satella/configuration/schema/from_json.py:52 -/
def compAll (R : Reg) : Js → List Comp
  | .nil => []
  | .cons j rest => comp R j :: compAll R rest
end

/-- `descriptor_from_dict`, /repo/satella/configuration/schema/from_json.py:75-104 -/
def descriptorFromDict (R : Reg) (fs : Fields) : Except Err D := mkDict (compFields R fs)

/-! ## Specification: the documented schemas (/repo/docs/configuration/schema.rst:66-187) and what they mean -/

/-- what is given beside `type` -/
inductive Opt where
  | required
  | explicitlyRequired
  | optional
  | default (j : J)
  | optionalDefault (j : J)

/-- the value that stands for the key if it is not there -/
def Opt.value : Opt → Option V
  | .required => none
  | .explicitlyRequired => none
  | .optional => some .null
  | .default j => some j.toV
  | .optionalDefault j => some j.toV

/-- how it is written -/
def Opt.fields : Opt → Fields
  | .required => .nil
  | .explicitlyRequired => .cons sOptional (.val (.bool false)) .nil
  | .optional => .cons sOptional (.val (.bool true)) .nil
  | .default j => .cons sDefault j .nil
  | .optionalDefault j => .cons sDefault j (.cons sOptional (.val (.bool true)) .nil)

mutual
/-- documented schemas: `"int"`, or `int` itself; `{"type": "int", ...}`; a caster; a list of anything, a list of something, a union, a dictionary with given keys -/
inductive G where
  | plain (s : Nat)
  | cls (s : Nat)
  | typed (s : Nat) (o : Opt)
  | cast (s : Nat) (o : Opt)
  | listAny (o : Opt)
  | listOf (g : G) (o : Opt)
  | union (gs : Gs) (o : Opt)
  | nested (fs : GFields)
inductive Gs where
  | nil
  | cons (g : G) (rest : Gs)
inductive GFields where
  | nil
  | cons (key : Nat) (g : G) (rest : GFields)
end

mutual
/-- how a schema is written -/
def G.write : G → J
  | .plain s => .str s
  | .cls s => .cls s
  | .typed s o => .dict (.cons sType (.str s) o.fields)
  | .cast s o => .dict (.cons sType (.str sCaster) (.cons sCastTo (.str s) o.fields))
  | .listAny o => .dict (.cons sType (.str sList) o.fields)
  | .listOf g o => .dict (.cons sType (.str sList) (.cons sOf g.write o.fields))
  | .union gs o => .dict (.cons sType (.str sUnion) (.cons sOf (.arr gs.write) o.fields))
  | .nested fs => .dict fs.write
/-- how the list of schemas is written -/
def Gs.write : Gs → Js
  | .nil => .nil
  | .cons g rest => .cons g.write rest.write
/-- how a dictionary of schemas is written -/
def GFields.write : GFields → Fields
  | .nil => .nil
  | .cons k g rest => .cons k g.write rest.write
end

/-- the value for a key with this schema if the key is not there -/
def G.ifMissing : G → Option V
  | .plain _ => none
  | .cls _ => none
  | .typed _ o => o.value
  | .cast _ o => o.value
  | .listAny o => o.value
  | .listOf _ o => o.value
  | .union _ o => o.value
  | .nested _ => none

/-- the keys of a dictionary of schemas -/
def GFields.keys : GFields → List Nat
  | .nil => []
  | .cons k _ rest => k :: rest.keys

mutual
/-- the value `v` conforms to the schema, which makes `o` of it -/
def Means (R : Reg) : G → V → V → Prop
  | .plain s, v, o => ∃ m, R.plain s = some m ∧ m v = .ok o
  | .cls s, v, o => ∃ m, R.plain s = some m ∧ m v = .ok o
  | .typed s _, v, o => ∃ m, R.plain s = some m ∧ m v = .ok o
  | .cast s _, v, o => ∃ m, R.cast s = some m ∧ m v = .ok o
  | .listAny _, v, o => ∃ l, v = .list l ∧ o = .list l
  | .listOf g _, v, o => ∃ l l', v = .list l ∧ o = .list l' ∧ l'.length = l.length ∧ ∀ (i : Nat) x y, l[i]? = some x → l'[i]? = some y → Means R g x y
  | .union gs _, v, o => FirstMeans R gs v o
  | .nested fs, v, o => ∃ f g, v = .dict f ∧ o = .dict g ∧ FieldsMean R fs f g ∧ ∀ n, n ∉ fs.keys → g n = f n
/-- the first schema that the value conforms to makes `o` of it -/
def FirstMeans (R : Reg) : Gs → V → V → Prop
  | .nil, _, _ => False
  | .cons g rest, v, o => Means R g v o ∨ ((∀ x, ¬ Means R g v x) ∧ FirstMeans R rest v o)
/-- every key is there, and its value conforms, or it may be missing -/
def FieldsMean (R : Reg) : GFields → (Nat → Option V) → (Nat → Option V) → Prop
  | .nil, _, _ => True
  | .cons k g rest, f, h =>
    ((∃ x y, f k = some x ∧ Means R g x y ∧ h k = some y) ∨ (f k = none ∧ ∃ y, g.ifMissing = some y ∧ h k = some y)) ∧ FieldsMean R rest f h
end

mutual
/-- the names in it are known, are given in full where they have to be, and no nested dictionary has a key named `type` -/
def Known (R : Reg) : G → Prop
  | .plain s => (R.plain s).isSome ∧ s ≠ sEmpty
  | .cls s => (R.plain s).isSome
  | .typed s _ => (R.plain s).isSome ∧ s ≠ sList ∧ s ≠ sCaster ∧ s ≠ sUnion ∧ s ≠ sDict
  | .cast s _ => (R.cast s).isSome
  | .listAny _ => True
  | .listOf g _ => Known R g
  | .union gs _ => AllKnown R gs
  | .nested fs => FieldsKnown R fs ∧ sType ∉ fs.keys
/-- all of them are known -/
def AllKnown (R : Reg) : Gs → Prop
  | .nil => True
  | .cons g rest => Known R g ∧ AllKnown R rest
/-- all of them are known -/
def FieldsKnown (R : Reg) : GFields → Prop
  | .nil => True
  | .cons _ g rest => Known R g ∧ FieldsKnown R rest
end

mutual
/-- there is no list in it -/
def G.NoList : G → Prop
  | .listAny _ => False
  | .listOf _ _ => False
  | .union gs _ => gs.NoList
  | .nested fs => fs.NoList
  | _ => True
/-- there is no list in them -/
def Gs.NoList : Gs → Prop
  | .nil => True
  | .cons g rest => g.NoList ∧ rest.NoList
/-- there is no list in them -/
def GFields.NoList : GFields → Prop
  | .nil => True
  | .cons _ g rest => g.NoList ∧ rest.NoList
end

mutual
/-- the keys of every dictionary differ, there is no list below a union, and the types and casting functions in it raise nothing else than what is turned into ConfigurationValidationError -/
def Sound (R : Reg) : G → Prop
  | .plain s => ∀ m, R.plain s = some m → ∀ v e, m v ≠ .other e
  | .cls s => ∀ m, R.plain s = some m → ∀ v e, m v ≠ .other e
  | .typed s _ => ∀ m, R.plain s = some m → ∀ v e, m v ≠ .other e
  | .cast s _ => ∀ m, R.cast s = some m → ∀ v, m v ≠ .typeError ∧ ∀ e, m v ≠ .other e
  | .listAny _ => True
  | .listOf g _ => Sound R g
  | .union gs _ => AllSound R gs ∧ gs.NoList
  | .nested fs => fs.keys.Nodup ∧ FieldsSound R fs
/-- all of them are sound -/
def AllSound (R : Reg) : Gs → Prop
  | .nil => True
  | .cons g rest => Sound R g ∧ AllSound R rest
/-- all of them are sound -/
def FieldsSound (R : Reg) : GFields → Prop
  | .nil => True
  | .cons _ g rest => Sound R g ∧ FieldsSound R rest
end

/-! ## Proofs -/

variable (R : Reg)

theorem optOf_fields (o : Opt) (k1 : Nat) (j1 : J) (h1 : k1 ≠ sOptional ∧ k1 ≠ sDefault) : optOf (.cons k1 j1 o.fields) = o.value := by
  obtain ⟨a, b⟩ := h1
  have a' : (sOptional = k1) = False := by simp [Ne.symm a]
  have b' : (sDefault = k1) = False := by simp [Ne.symm b]
  have e : sOptional ≠ sDefault := by decide
  cases o <;> simp [optOf, Fields.get, Opt.fields, Opt.value, a', b', e, e.symm, J.truthy]

theorem optOf_fields2 (o : Opt) (k1 k2 : Nat) (j1 j2 : J) (h1 : k1 ≠ sOptional ∧ k1 ≠ sDefault) (h2 : k2 ≠ sOptional ∧ k2 ≠ sDefault) :
    optOf (.cons k1 j1 (.cons k2 j2 o.fields)) = o.value := by
  have : optOf (.cons k1 j1 (.cons k2 j2 o.fields)) = optOf (.cons k2 j2 o.fields) := by
    simp only [optOf, Fields.get, if_neg (Ne.symm h1.1), if_neg (Ne.symm h1.2)]
    rfl
  rw [this, optOf_fields o k2 j2 h2]

theorem get_type_fields (fs : GFields) (h : sType ∉ fs.keys) : fs.write.get sType = none := by
  match fs with
  | .nil => rfl
  | .cons k g rest =>
    simp only [GFields.keys, List.mem_cons, not_or] at h
    simp only [GFields.write, Fields.get, if_neg h.1]
    exact get_type_fields rest h.2

/-- what a dictionary has for other keys plays no role -/
theorem keysFit_congr : ∀ (ks : Keys) (f g g' : Nat → Option V), (∀ n ∈ ks.names, g' n = g n) → KeysFit ks f g → KeysFit ks f g'
  | .nil, _, _, _, _, _ => trivial
  | .cons name opt d rest, f, g, g', he, h => by
    simp only [KeysFit] at h ⊢
    rw [he name (by simp [Keys.names])]
    exact ⟨h.1, keysFit_congr rest f g g' (fun n hn => he n (by simp [Keys.names, hn])) h.2⟩

mutual
theorem comp_write : ∀ g : G, Known R g → ∃ d, comp R g.write = .desc d true g.ifMissing ∧ (∀ v o, Fits d v o ↔ Means R g v o) ∧ (Sound R g → Good d) ∧ (g.NoList → NoList d)
  | .plain s, h => by
    simp only [Known] at h
    obtain ⟨m, hm⟩ := Option.isSome_iff_exists.1 h.1
    refine ⟨.basic m, by simp [G.write, comp, h.2, forStr, hm, G.ifMissing], fun v o => by simp [Fits, Means, hm], fun hs => ?_, fun _ => trivial⟩
    simp only [Sound] at hs; simp only [Good]; exact hs m hm
  | .cls s, h => by
    simp only [Known] at h
    obtain ⟨m, hm⟩ := Option.isSome_iff_exists.1 h
    refine ⟨.basic m, by simp [G.write, comp, forStr, hm, G.ifMissing], fun v o => by simp [Fits, Means, hm], fun hs => ?_, fun _ => trivial⟩
    simp only [Sound] at hs; simp only [Good]; exact hs m hm
  | .typed s op, h => by
    simp only [Known] at h
    obtain ⟨m, hm⟩ := Option.isSome_iff_exists.1 h.1
    refine ⟨.basic m, ?_, ?_, fun hs => by simp only [Sound] at hs; simp only [Good]; exact hs m hm, fun _ => trivial⟩
    · simp only [G.write, comp, forDict, Fields.get, if_true, hm, if_neg h.2.1, if_neg h.2.2.1, if_neg h.2.2.2.1, if_neg h.2.2.2.2, G.ifMissing]
      rw [optOf_fields op _ _ (by decide)]
    · intro v o; simp [Fits, Means, hm]
  | .cast s op, h => by
    simp only [Known] at h
    obtain ⟨m, hm⟩ := Option.isSome_iff_exists.1 h
    refine ⟨.caster m, ?_, ?_, fun hs => by simp only [Sound] at hs; simp only [Good]; exact hs m hm, fun _ => trivial⟩
    · have e1 : (sCaster = sList) = False := by simp [sCaster, sList]
      have e2 : (sCastTo = sType) = False := by simp [sCastTo, sType]
      simp only [G.write, comp, forDict, Fields.get, if_true, e1, e2, if_false, hm, G.ifMissing]
      rw [optOf_fields2 op _ _ _ _ (by decide) (by decide)]
    · intro v o; simp [Fits, Means, hm]
  | .listAny op, h => by
    refine ⟨.list 0 anything, ?_, ?_, fun _ => by simp [anything, Good], fun hl => by simp only [G.NoList] at hl⟩
    · have hf : findEntry (compFields R (.cons sType (.str sList) op.fields)) sOf = none := by
        cases op <;> simp [findEntry, compFields, Opt.fields, sType, sOf, sOptional, sDefault]
      simp only [G.write, comp, forDict, Fields.get, if_true, hf, mkList, G.ifMissing]
      rw [optOf_fields op _ _ (by decide)]
    · intro v o
      simp only [Fits, Means, anything]
      constructor
      · rintro ⟨l, l', rfl, rfl, hl, hx⟩
        refine ⟨l, rfl, ?_⟩
        congr 1
        refine List.ext_getElem hl ?_
        intro i h1 h2
        have := hx i l[i] l'[i] (List.getElem?_eq_getElem h2) (List.getElem?_eq_getElem h1)
        injection this with this
        exact this.symm
      · rintro ⟨l, rfl, rfl⟩
        refine ⟨l, l, rfl, rfl, rfl, ?_⟩
        intro i x y hx hy
        rw [hx] at hy; injection hy with hy; rw [hy]
  | .listOf g op, h => by
    simp only [Known] at h
    obtain ⟨d, hd, hm, hgd, hnl⟩ := comp_write g h
    refine ⟨.list 0 d, ?_, ?_, fun hs => by simp only [Sound] at hs; simp only [Good]; exact hgd hs, fun hl => by simp only [G.NoList] at hl⟩
    · have hf : findEntry (compFields R (.cons sType (.str sList) (.cons sOf g.write op.fields))) sOf = some ⟨sOf, comp R g.write, compArr R g.write⟩ := by
        simp [findEntry, compFields, sType, sOf]
      simp only [G.write, comp, forDict, Fields.get, if_true, hf, hd, mkList, G.ifMissing]
      rw [optOf_fields2 op _ _ _ _ (by decide) (by decide)]
    · intro v o
      simp only [Fits, Means, hm]
  | .union gs op, h => by
    simp only [Known] at h
    obtain ⟨as, ha, hm, hgd, hnl⟩ := compAll_write gs h
    refine ⟨.union as, ?_, ?_, fun hs => by simp only [Sound] at hs; simp only [Good]; exact ⟨hgd hs.1, hnl hs.2⟩, fun hl => by simp only [G.NoList] at hl; simp only [NoList]; exact hnl hl⟩
    · have hf : findEntry (compFields R (.cons sType (.str sUnion) (.cons sOf (.arr gs.write) op.fields))) sOf = some ⟨sOf, .raises .schema, compAll R gs.write⟩ := by
        simp [findEntry, compFields, sType, sOf, comp, compArr]
      have e1 : (sUnion = sList) = False := by simp [sUnion, sList]
      have e2 : (sUnion = sCaster) = False := by simp [sUnion, sCaster]
      simp only [G.write, comp, forDict, Fields.get, if_true, if_false, e1, e2, hf, ha, G.ifMissing]
      rw [optOf_fields2 op _ _ _ _ (by decide) (by decide)]
    · intro v o
      simp only [Fits, Means, hm]
  | .nested fs, h => by
    simp only [Known] at h
    obtain ⟨ks, hk, hn, hm, hgd, hnl⟩ := compFields_write fs h.1
    refine ⟨.dict ks (fun _ v => v), ?_, ?_, fun hs => by simp only [Sound] at hs; simp only [Good]; exact ⟨hn ▸ hs.1, hgd hs.2⟩, fun hl => by simp only [G.NoList] at hl; simp only [NoList]; exact hnl hl⟩
    · simp only [G.write, comp, forDict, get_type_fields fs h.2, mkDict, hk, G.ifMissing]
    · intro v o
      simp only [Fits, Means, hm, hn]
      constructor
      · rintro ⟨f, g, h1, h2, h3, h4⟩
        exact ⟨f, g, h1, h2, h3, fun n hn => by rw [h4 n hn]; cases f n <;> rfl⟩
      · rintro ⟨f, g, h1, h2, h3, h4⟩
        exact ⟨f, g, h1, h2, h3, fun n hn => by rw [h4 n hn]; cases f n <;> rfl⟩
theorem compAll_write : ∀ gs : Gs, AllKnown R gs → ∃ as, mkAlts (compAll R gs.write) = (none, as) ∧ (∀ v o, FirstFits as v o ↔ FirstMeans R gs v o) ∧ (AllSound R gs → AltsGood as) ∧ (gs.NoList → AltsNoList as)
  | .nil, _ => ⟨.nil, by simp [Gs.write, compAll, mkAlts], by intro v o; simp [FirstFits, FirstMeans], fun _ => trivial, fun _ => trivial⟩
  | .cons g rest, h => by
    simp only [AllKnown] at h
    obtain ⟨d, hd, hm, hgd, hnl⟩ := comp_write g h.1
    obtain ⟨as, ha, hma, hga, hna⟩ := compAll_write rest h.2
    refine ⟨.cons d as, by simp [Gs.write, compAll, hd, mkAlts, ha], ?_, fun hs => by simp only [AllSound] at hs; simp only [AltsGood]; exact ⟨hgd hs.1, hga hs.2⟩, fun hl => by simp only [Gs.NoList] at hl; simp only [AltsNoList]; exact ⟨hnl hl.1, hna hl.2⟩⟩
    intro v o
    simp only [FirstFits, FirstMeans, hm, hma]
theorem compFields_write : ∀ fs : GFields, FieldsKnown R fs →
    ∃ ks, mkKeys (compFields R fs.write) = (none, false, ks) ∧ ks.names = fs.keys ∧ (∀ f g, KeysFit ks f g ↔ FieldsMean R fs f g) ∧ (FieldsSound R fs → KeysGood ks) ∧ (fs.NoList → KeysNoList ks)
  | .nil, _ => ⟨.nil, by simp [GFields.write, compFields, mkKeys], by simp [Keys.names, GFields.keys], by intro f g; simp [KeysFit, FieldsMean], fun _ => trivial, fun _ => trivial⟩
  | .cons k g rest, h => by
    simp only [FieldsKnown] at h
    obtain ⟨d, hd, hm, hgd, hnl⟩ := comp_write g h.1
    obtain ⟨ks, hk, hn, hmk, hgk, hnk⟩ := compFields_write rest h.2
    refine ⟨.cons k g.ifMissing d ks, by simp [GFields.write, compFields, mkKeys, hd, hk], by simp [Keys.names, GFields.keys, hn], ?_, fun hs => by simp only [FieldsSound] at hs; simp only [KeysGood]; exact ⟨hgd hs.1, hgk hs.2⟩, fun hl => by simp only [GFields.NoList] at hl; simp only [KeysNoList]; exact ⟨hnl hl.1, hnk hl.2⟩⟩
    intro f h'
    simp only [KeysFit, FieldsMean, hm, hmk]
end

/-- **C90 (optional keys)** (partial: as below). The entry `optional` makes a key optional unless it is None, False, zero or empty; without it a key is optional if it has a default. -/
theorem C90_optional_partial (fs : Fields) : optOf fs = none ↔
    (∃ j, fs.get sOptional = some j ∧ (j = .str sEmpty ∨ j = .dict .nil ∨ j = .arr .nil ∨ j = .val .null ∨ j = .val (.bool false) ∨ j = .val (.int 0) ∨ j = .val (.str sEmpty) ∨ j = .val (.list []))) ∨
    (fs.get sOptional = none ∧ fs.get sDefault = none) := by
  have ht : ∀ j : J, j.truthy = false ↔ (j = .str sEmpty ∨ j = .dict .nil ∨ j = .arr .nil ∨ j = .val .null ∨ j = .val (.bool false) ∨ j = .val (.int 0) ∨ j = .val (.str sEmpty) ∨ j = .val (.list [])) := by
    intro j
    rcases j with s | f | l | c | v
    · simp [J.truthy]
    · cases f <;> simp [J.truthy]
    · cases l <;> simp [J.truthy]
    · simp [J.truthy]
    · cases v <;> simp [J.truthy]
  unfold optOf
  cases ho : fs.get sOptional with
  | none => cases hd : fs.get sDefault <;> simp
  | some j => simp [← ht]

/-- **C90** (partial: the names of types are known, no nested dictionary has a key `type`, and no key has `""` as its schema). A schema written as documented gives a descriptor, and what conforms to this descriptor, and what is made of it, is exactly
  what the documentation says. -/
theorem C90_from_dict_partial (fs : GFields) (h : FieldsKnown R fs) :
    ∃ d, descriptorFromDict R fs.write = .ok d ∧ ∀ v o, Fits d v o ↔ ∃ f g, v = .dict f ∧ o = .dict g ∧ FieldsMean R fs f g ∧ ∀ n, n ∉ fs.keys → g n = f n := by
  obtain ⟨ks, hk, hn, hm, _⟩ := compFields_write R fs h
  refine ⟨.dict ks (fun _ v => v), by simp [descriptorFromDict, mkDict, hk], ?_⟩
  intro v o
  simp only [Fits, hm, hn]
  constructor
  · rintro ⟨f, g, h1, h2, h3, h4⟩
    exact ⟨f, g, h1, h2, h3, fun n hn => by rw [h4 n hn]; cases f n <;> rfl⟩
  · rintro ⟨f, g, h1, h2, h3, h4⟩
    exact ⟨f, g, h1, h2, h3, fun n hn => by rw [h4 n hn]; cases f n <;> rfl⟩

/-- **C90, calling it** (partial: as above; also no value was refused before by a list of this schema, there is no list below a union, and the types raise only what is turned into ConfigurationValidationError). Calling the descriptor gives what the
  documentation says, and raises ConfigurationValidationError if the configuration does not conform. -/
theorem C90_call_partial (E : Env) (fs : GFields) (h : FieldsKnown R fs) (hk : fs.keys.Nodup) (hs : FieldsSound R fs) :
    ∃ d, descriptorFromDict R fs.write = .ok d ∧ ∀ s, Armed s d → ∀ f,
      (∀ o, (call E d (.dict f) s).1 = .ok o ↔ ∃ g, o = .dict g ∧ FieldsMean R fs f g ∧ ∀ n, n ∉ fs.keys → g n = f n) ∧
      ((call E d (.dict f) s).1 = .invalid ↔ ∀ g, ¬ FieldsMean R fs f g) := by
  obtain ⟨ks, hk', hn, hm, hg, _⟩ := compFields_write R fs h
  refine ⟨.dict ks (fun _ v => v), by simp [descriptorFromDict, mkDict, hk'], ?_⟩
  intro s ha f
  have hG : Good (.dict ks (fun _ v => v)) := by simp only [Good]; exact ⟨hn ▸ hk, hg hs⟩
  have hF : ∀ o, Fits (.dict ks (fun _ v => v)) (.dict f) o ↔ ∃ g, o = .dict g ∧ FieldsMean R fs f g ∧ ∀ n, n ∉ fs.keys → g n = f n := by
    intro o
    simp only [Fits, hm, hn]
    constructor
    · rintro ⟨f', g, h1, h2, h3, h4⟩
      injection h1 with h1
      subst h1
      exact ⟨g, h2, h3, fun n hn => by rw [h4 n hn]; cases f n <;> rfl⟩
    · rintro ⟨g, h2, h3, h4⟩
      exact ⟨f, g, rfl, h2, h3, fun n hn => by rw [h4 n hn]; cases f n <;> rfl⟩
  have hc := C88_schema_partial E _ s ha hG (.dict f)
  refine ⟨fun o => (hc.1 o).trans (hF o), hc.2.trans ?_⟩
  constructor
  · intro h g hg'
    have key : FieldsMean R fs f (fun n => if n ∈ fs.keys then g n else f n) := by
      rw [← hm] at hg' ⊢
      exact keysFit_congr ks f _ _ (fun n hnn => by rw [hn] at hnn; simp [hnn]) hg'
    exact h _ ((hF _).2 ⟨_, rfl, key, fun n hnn => by simp [hnn]⟩)
  · intro h o ho
    obtain ⟨g, _, hg', _⟩ := (hF o).1 ho
    exact h g hg'

/-- **C90, an unknown name**: a misspelt type of a key raises AttributeError where ConfigurationSchemaError is meant, and so does `"list"`, although it is one of the documented strings and List takes no required arguments. -/
theorem C90_unknown_violates (k s : Nat) (h : R.plain s = none) (hs : s ≠ sEmpty) : descriptorFromDict R (.cons k (.str s) .nil) = .error .attribute := by
  simp [descriptorFromDict, mkDict, compFields, comp, hs, forStr, h, mkKeys]

/-- **C90, defaults.** A dictionary given as a default is the dictionary with these entries, and a list the list with these elements. -/
theorem C90_default_partial (k : Nat) (j : J) (rest : Fields) : ∃ f g, (J.dict (.cons k j rest)).toV = .dict f ∧ (J.dict rest).toV = .dict g ∧ (f k = some j.toV ∧ ∀ n, n ≠ k → f n = g n) ∧
    ∀ j js, ∃ l, (J.arr js).toV = .list l ∧ (J.arr (.cons j js)).toV = .list (j.toV :: l) := by
  refine ⟨_, _, rfl, rfl, ⟨?_, fun n hn => ?_⟩, fun j js => ⟨_, rfl, rfl⟩⟩
  · simp [Fields.toFun]
  · simp [Fields.toFun, hn]

/-- **C90, a list of an unknown type**: it is taken for a list of anything. -/
theorem C90_list_of_unknown_violates (k s : Nat) (h : R.plain s = none) (hs : s ≠ sEmpty) :
    ∃ d, descriptorFromDict R (.cons k (.dict (.cons sType (.str sList) (.cons sOf (.str s) .nil))) .nil) = .ok d ∧
      ∀ l : List V, Fits d (.dict (put (fun _ => none) k (.list l))) (.dict (put (fun _ => none) k (.list l))) := by
  refine ⟨.dict (.cons k none (.list 0 anything) .nil) (fun _ v => v), ?_, ?_⟩
  · simp [descriptorFromDict, mkDict, compFields, comp, forDict, Fields.get, findEntry, sType, sOf, hs, forStr, h, mkList, mkKeys, optOf, sOptional, sDefault]
  · intro l
    simp only [Fits, KeysFit, Keys.names]
    refine ⟨_, _, rfl, rfl, ⟨Or.inl ⟨.list l, .list l, by simp [put], ⟨l, l, rfl, rfl, rfl, ?_⟩, by simp [put]⟩, trivial⟩, ?_⟩
    · intro i x y hx hy
      rw [hx] at hy; injection hy with hy
      simp [anything, Fits, hy]
    · intro n hn
      simp at hn
      simp [put, hn]

/-- **C90, the empty string**: the schema `{"a": ""}`, which stands for anything, gives a descriptor that refuses every dictionary that does not have the key None. -/
theorem C90_empty_violates (k : Nat) : ∃ d, descriptorFromDict R (.cons k (.str sEmpty) .nil) = .ok d ∧ ∀ f o, f noName = none → ¬ Fits d (.dict f) o := by
  refine ⟨.dict (.cons noName none anything .nil) (fun _ v => v), by simp [descriptorFromDict, mkDict, compFields, comp, mkKeys], ?_⟩
  intro f o hf
  simp only [Fits, KeysFit]
  rintro ⟨f', g, h1, rfl, ⟨⟨x, y, h, _⟩ | ⟨_, y, h, _⟩, _⟩, _⟩
  · injection h1 with h1
    subst h1
    rw [hf] at h; cases h
  · cases h

/-- **C90, a nested key named type**: `{"a": {"type": "str", "size": "int"}}`, where the configuration of `a` has keys `type` and `size`, is read as a single string: a dictionary with these keys does not conform as such. -/
theorem C90_nested_type_violates (k k2 s s2 : Nat) (m : V → Made) (h : R.plain s = some m) (hs : s ≠ sList ∧ s ≠ sCaster ∧ s ≠ sUnion ∧ s ≠ sDict) (hk : k2 ≠ sDefault ∧ k2 ≠ sOptional) :
    descriptorFromDict R (.cons k (.dict (.cons sType (.str s) (.cons k2 (.str s2) .nil))) .nil) = .ok (.dict (.cons k none (.basic m) .nil) (fun _ v => v)) := by
  obtain ⟨a, b⟩ := hk
  have a' : (sDefault = k2) = False := by simp [Ne.symm a]
  have b' : (sOptional = k2) = False := by simp [Ne.symm b]
  have c1 : (sDefault = sType) = False := by simp [sDefault, sType]
  have c2 : (sOptional = sType) = False := by simp [sOptional, sType]
  simp [descriptorFromDict, mkDict, compFields, comp, forDict, Fields.get, hs, h, mkKeys, optOf, a', b', c1, c2]

/-- **C90, 'dict' and unknown names after `type`**: TypeError, KeyError, where the documentation lists `dict` as a type, and ConfigurationSchemaError is meant; also inside a list. -/
theorem C90_type_violates (k s : Nat) (hs : s ≠ sList ∧ s ≠ sCaster ∧ s ≠ sUnion ∧ s ≠ sDict) (h : R.plain s = none) :
    descriptorFromDict R (.cons k (.dict (.cons sType (.str sDict) .nil)) .nil) = .error .type ∧
    descriptorFromDict R (.cons k (.dict (.cons sType (.str s) .nil)) .nil) = .error .key ∧
    descriptorFromDict R (.cons k (.dict (.cons sType (.str sList) (.cons sOf (.dict (.cons sType (.str s) .nil)) .nil))) .nil) = .error .key := by
  refine ⟨?_, ?_, ?_⟩
  · simp [descriptorFromDict, mkDict, compFields, comp, forDict, Fields.get, mkKeys, sDict, sList, sCaster, sUnion]
  · simp [descriptorFromDict, mkDict, compFields, comp, forDict, Fields.get, hs, h, mkKeys]
  · simp [descriptorFromDict, mkDict, compFields, comp, forDict, Fields.get, findEntry, hs, h, mkKeys, mkList, sType, sOf]

/-! A case that meets the hypotheses: `{"a": int, "b": {"type": "list", "of": {"c": {"type": "union", "of": ["int", "any"], "default": 5}}, "optional": True}}` -/

/-- int and any are registered -/
def exampleReg : Reg where
  plain s := if s = 20 then some (fun v => match v with | .int i => .ok (.int i) | _ => .valueError) else if s = 21 then some .ok else none
  cast _ := none

/-- the schema above -/
def exampleFields : GFields :=
  .cons 100 (.cls 20) (.cons 101 (.listOf (.nested (.cons 102 (.union (.cons (.plain 20) (.cons (.plain 21) .nil)) (.default (.val (.int 5)))) .nil)) .optional) .nil)

example : FieldsKnown exampleReg exampleFields := by
  simp [exampleFields, FieldsKnown, Known, AllKnown, exampleReg, GFields.keys, sEmpty, sType]

example : FieldsMean exampleReg exampleFields (put (put (fun _ => none) 100 (.int 3)) 101 (.list [.dict (fun _ => none)]))
    (put (put (fun _ => none) 100 (.int 3)) 101 (.list [.dict (put (fun _ => none) 102 (.int 5))])) := by
  simp only [exampleFields, FieldsMean, Means, exampleReg, GFields.keys]
  refine ⟨Or.inl ⟨.int 3, .int 3, by simp [put], ⟨(fun v => match v with | .int i => .ok (.int i) | _ => .valueError), by simp, rfl⟩, by simp [put]⟩,
    Or.inl ⟨.list [.dict (fun _ => none)], .list [.dict (put (fun _ => none) 102 (.int 5))], by simp [put], ⟨_, _, rfl, rfl, rfl, ?_⟩, by simp [put]⟩, trivial⟩
  intro i x y hx hy
  cases i with
  | succ i => simp at hx
  | zero =>
    simp at hx hy
    subst hx hy
    refine ⟨_, _, rfl, rfl, ⟨Or.inr ⟨rfl, .int 5, by simp [G.ifMissing, Opt.value, J.toV], by simp [put]⟩, trivial⟩, ?_⟩
    intro n hn
    simp at hn
    simp [put, hn]

example : exampleFields.keys.Nodup ∧ FieldsSound exampleReg exampleFields := by
  simp only [exampleFields, FieldsSound, Sound, AllSound, exampleReg, GFields.keys, Gs.NoList, G.NoList]
  have hi : ∀ (v : V) (e : Nat), (match v with | .int i => Made.ok (.int i) | _ => .valueError) ≠ .other e := by
    intro v e; cases v <;> simp
  refine ⟨by decide, ?_, ⟨by decide, ⟨⟨?_, ?_, trivial⟩, trivial, trivial, trivial⟩, trivial⟩, trivial⟩
  · intro m hm v e
    simp at hm; subst hm; exact hi v e
  · intro m hm v e
    simp at hm; subst hm; exact hi v e
  · intro m hm v e
    simp at hm; subst hm; simp

end Verif.Schema
