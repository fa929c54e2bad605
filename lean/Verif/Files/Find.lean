import Verif.Files.Path

/-!
# Model of find_files (satella/files.py), C75

A directory is the list of its entries in the order of `os.listdir`.  Matching with the regular expression is an arbitrary predicate on strings.
Not modelled: changes of the directory while it is looked at, links, and directories that may not be read.
-/
namespace Verif.Files.Find
open Verif.Files

/-- the entries of a directory.  (Part of the model of `_cond_join`, /repo/satella/files.py:327-332.) -/
inductive Entries where
  | nil
  | file (name : Path) (rest : Entries)
  | dir (name : Path) (inside rest : Entries)
  deriving Repr, DecidableEq

/-- `_cond_join`, /repo/satella/files.py:327-332 -/
def condJoin (pre : Option Path) (name : Path) : Path :=
  match pre with
  | none => name
  | some p => join2 p name

/-- the parameters that are handed on.  (Part of the model of `find_files`, /repo/satella/files.py:335-377.) -/
structure Args where
  /-- `re.match(wildcard, ...)` -/
  wild : Path → Bool
  scan : Bool
  entire : Bool

/-- the parameters of the recursive call, /repo/satella/files.py:368-370: the others have their defaults -/
def Args.sub (a : Args) : Args := ⟨a.wild, true, false⟩

/-- what is given for an entry that is not looked into, /repo/satella/files.py:371-377 -/
def give (a : Args) (pre : Option Path) (name : Path) : List Path :=
  if a.wild (if a.entire then condJoin pre name else name) then [condJoin pre name] else []

/-- the loop of `find_files`, /repo/satella/files.py:362-377 -/
def findLoop (a : Args) (pre : Option Path) : Entries → List Path
  | .nil => []
  | .file n r => give a pre n ++ findLoop a pre r
  | .dir n i r => (if a.scan then findLoop a.sub (some (condJoin pre n)) i else give a pre n) ++ findLoop a pre r

/-- `find_files`, /repo/satella/files.py:335-377 -/
def findFiles (path : Path) (es : Entries) (a : Args) (prefixWith : Option Path) (withPath : Bool) : List Path :=
  findLoop a (if withPath then some (condJoin prefixWith path) else prefixWith) es

/-! ## Specification -/

/-- there is a file under these names: the directories on the way, then its own name -/
inductive Has : Entries → List Path → Path → Prop where
  | here (n r) : Has (.file n r) [] n
  | inside {n i r ds f} : Has i ds f → Has (.dir n i r) (n :: ds) f
  | afterFile {n r ds f} : Has r ds f → Has (.file n r) ds f
  | afterDir {n i r ds f} : Has r ds f → Has (.dir n i r) ds f

/-- all files, with the directories on the way, each as often as it is there -/
def files : Entries → List (List Path × Path)
  | .nil => []
  | .file n r => ([], n) :: files r
  | .dir n i r => (files i).map (fun x => (n :: x.1, x.2)) ++ files r

/-- `os.path.join` of the prefix, the directories and the name -/
def fullName (pre : Option Path) (x : List Path × Path) : Path :=
  match pre with
  | some p => (x.1 ++ [x.2]).foldl join2 p
  | none => joinAll (x.1 ++ [x.2])

/-- the prefix of the results: what the caller gave, then the path, if asked for -/
def prefixOf (path : Path) (prefixWith : Option Path) (withPath : Bool) : Option Path :=
  match prefixWith, withPath with
  | none, true => some path
  | some p, true => some (join2 p path)
  | x, false => x

/-- is the file wanted? -/
def wanted (a : Args) (pre : Option Path) (x : List Path × Path) : Bool :=
  (a.scan || x.1 = []) && a.wild (if a.entire then fullName pre x else x.2)

/-- the documented result -/
def expected (path : Path) (es : Entries) (a : Args) (prefixWith : Option Path) (withPath : Bool) : List Path :=
  ((files es).filter (wanted a (prefixOf path prefixWith withPath))).map (fullName (prefixOf path prefixWith withPath))

/-- there are no directories -/
def Flat : Entries → Prop
  | .nil => True
  | .file _ r => Flat r
  | .dir _ _ _ => False

/-! ## Proofs -/

theorem files_iff (es : Entries) (ds : List Path) (f : Path) : (ds, f) ∈ files es ↔ Has es ds f := by
  constructor
  · intro h
    induction es generalizing ds with
    | nil => cases h
    | file n r ih =>
      rcases List.mem_cons.1 h with e | h
      · cases e; exact .here ..
      · exact .afterFile (ih ds h)
    | dir n i r ihi ihr =>
      rcases List.mem_append.1 h with h | h
      · obtain ⟨x, hx, e⟩ := List.mem_map.1 h
        cases e
        exact .inside (ihi x.1 hx)
      · exact .afterDir (ihr ds h)
  · intro h
    induction h with
    | here n r => exact List.mem_cons_self ..
    | inside _ ih => exact List.mem_append_left _ (List.mem_map.2 ⟨_, ih, rfl⟩)
    | afterFile _ ih => exact List.mem_cons_of_mem _ ih
    | afterDir _ ih => exact List.mem_append_right _ ih

theorem prefixOf_eq (path : Path) (p : Option Path) (w : Bool) : (if w then some (condJoin p path) else p) = prefixOf path p w := by
  cases p <;> cases w <;> rfl

theorem fullName_nil (pre : Option Path) (n : Path) : fullName pre ([], n) = condJoin pre n := by
  cases pre <;> rfl

theorem fullName_cons (pre : Option Path) (n : Path) (ds : List Path) (f : Path) : fullName pre (n :: ds, f) = fullName (some (condJoin pre n)) (ds, f) := by
  cases pre <;> rfl

theorem give_eq (a : Args) (pre : Option Path) (n : Path) : give a pre n = (([([], n)] : List (List Path × Path)).filter (wanted a pre)).map (fullName pre) := by
  unfold give
  simp only [List.filter_cons, List.filter_nil, wanted, fullName_nil]
  simp only [decide_true, Bool.or_true, Bool.true_and]
  split
  · split
    · rw [List.map_cons, fullName_nil, List.map_nil]
    · rfl
  · split
    · rw [List.map_cons, fullName_nil, List.map_nil]
    · rfl

theorem loop_scan (w : Path → Bool) (es : Entries) (pre : Option Path) : findLoop ⟨w, true, false⟩ pre es = ((files es).filter (wanted ⟨w, true, false⟩ pre)).map (fullName pre) := by
  induction es generalizing pre with
  | nil => rfl
  | file n r ih =>
    unfold findLoop files
    rw [ih, give_eq, ← List.map_append, ← List.filter_append]
    rfl
  | dir n i r ihi ihr =>
    unfold findLoop files
    rw [ihr, List.filter_append, List.map_append]
    congr 1
    simp only [Args.sub, if_true]
    rw [ihi, List.filter_map, List.map_map]
    have h1 : (wanted ⟨w, true, false⟩ pre ∘ fun x : List Path × Path => (n :: x.1, x.2)) = wanted ⟨w, true, false⟩ (some (condJoin pre n)) := by
      funext x
      simp [wanted]
    have h2 : (fullName pre ∘ fun x : List Path × Path => (n :: x.1, x.2)) = fullName (some (condJoin pre n)) := by
      funext x
      simp only [Function.comp]
      rw [fullName_cons]
    rw [h1, h2]

theorem loop_flat (a : Args) (es : Entries) (pre : Option Path) (h : Flat es) : findLoop a pre es = ((files es).filter (wanted a pre)).map (fullName pre) := by
  induction es with
  | nil => rfl
  | file n r ih =>
    unfold findLoop files
    rw [ih h, give_eq, ← List.map_append, ← List.filter_append]
    rfl
  | dir n i r => exact h.elim

/-- **C75** (partial: the directories are looked into and the wildcard is for the names, or there are no directories). `find_files` gives, in the order of the listings, exactly the files that match, each once, with the prefix asked for. -/
theorem C75_find_partial (path : Path) (es : Entries) (a : Args) (p : Option Path) (withPath : Bool) (h : (a.scan = true ∧ a.entire = false) ∨ Flat es) :
    findFiles path es a p withPath = expected path es a p withPath := by
  unfold findFiles expected
  rw [prefixOf_eq]
  rcases h with ⟨h1, h2⟩ | h
  · obtain ⟨w, s, e⟩ := a
    simp only at h1 h2
    subst h1 h2
    exact loop_scan w es _
  · exact loop_flat a es _ h

/-- **C75, who is found** (partial, as above): a path is given exactly if it is the full name of a file that is there and whose name matches. -/
theorem C75_member_partial (path : Path) (es : Entries) (w : Path → Bool) (p : Option Path) (withPath : Bool) (x : Path) :
    x ∈ findFiles path es ⟨w, true, false⟩ p withPath ↔ ∃ ds f, Has es ds f ∧ w f = true ∧ x = fullName (prefixOf path p withPath) (ds, f) := by
  rw [C75_find_partial path es _ p withPath (Or.inl ⟨rfl, rfl⟩)]
  unfold expected
  constructor
  · intro h
    obtain ⟨y, hy, e⟩ := List.mem_map.1 h
    obtain ⟨h1, h2⟩ := List.mem_filter.1 hy
    exact ⟨y.1, y.2, (files_iff es y.1 y.2).1 h1, by simpa [wanted] using h2, e.symm⟩
  · rintro ⟨ds, f, h1, h2, e⟩
    exact List.mem_map.2 ⟨(ds, f), List.mem_filter.2 ⟨(files_iff es ds f).2 h1, by simpa [wanted] using h2⟩, e.symm⟩

/-- **C75, violated by apply_wildcard_to_entire_path below the first level**: there the wildcard is for the names only. For every wildcard, name and path for which that makes a difference. -/
theorem C75_entire_violates (w : Path → Bool) (path d f : Path) (h : w f ≠ w (join2 (join2 path d) f)) :
    findFiles path (.dir d (.file f .nil) .nil) ⟨w, true, true⟩ none true ≠ expected path (.dir d (.file f .nil) .nil) ⟨w, true, true⟩ none true := by
  intro he
  simp only [findFiles, findLoop, expected, files, Args.sub, give, condJoin, prefixOf] at he
  have hw : wanted ⟨w, true, true⟩ (some path) ([d], f) = w (join2 (join2 path d) f) := by simp [wanted, fullName]
  have hf : fullName (some path) ([d], f) = join2 (join2 path d) f := rfl
  cases h1 : w f <;> cases h2 : w (join2 (join2 path d) f) <;> simp [h1, h2, hw, hf] at he h

/-- **C75, violated by scan_subdirectories=False**: directories are given as if they were files. -/
theorem C75_directory_violates (w : Path → Bool) (path d : Path) (i : Entries) (h : w d = true) :
    findFiles path (.dir d i .nil) ⟨w, false, false⟩ none true = [join2 path d] ∧
      expected path (.dir d i .nil) ⟨w, false, false⟩ none true = [] := by
  constructor
  · simp [findFiles, findLoop, give, condJoin, h]
  · unfold expected
    rw [List.map_eq_nil_iff, List.filter_eq_nil_iff]
    intro x hx
    simp only [files, List.append_nil] at hx
    obtain ⟨y, _, e⟩ := List.mem_map.1 hx
    subst e
    simp [wanted]

/-! Cases that meet the hypotheses -/

/-- a file and a directory with two files -/
def sample : Entries := .file "a.txt".toList (.dir "d".toList (.file "b.txt".toList (.file "c.png".toList .nil)) .nil)

example : findFiles "r".toList sample ⟨fun n => n.getLast? = some 't', true, false⟩ none true = ["r/a.txt".toList, "r/d/b.txt".toList] := by decide
example : Has sample ["d".toList] "b.txt".toList := .afterFile (.inside (.here ..))
example : Flat (.file "x".toList .nil) := trivial
example : ∃ w : Path → Bool, w "b".toList ≠ w (join2 (join2 "r".toList "d".toList) "b".toList) := ⟨fun n => n.head? = some 'r', by decide⟩

end Verif.Files.Find
