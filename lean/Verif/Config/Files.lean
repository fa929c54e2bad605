import Verif.Config.Props
/-!
# Model of satella/configuration/sources/format.py and file.py, and C55
-/
namespace Verif.Config
open Verif Merge

/-- IOError and OSError are the same class in Python 3.  (Part of the model of `FormatSource`, /repo/satella/configuration/sources/format.py:28-60.) -/
def osError : Exc := .other 0

/-- `FormatSource.BASE_EXCEPTIONS`, /repo/satella/configuration/sources/format.py:32-33 (UnicodeDecodeError and binascii.Error are ValueErrors; KeyError and IndexError are LookupErrors) -/
def baseExceptions : Exc → Bool
  | .typeError => true
  | .valueError => true
  | .keyError => true
  | .indexError => true
  | _ => false

/-- `FormatSource.provide`, /repo/satella/configuration/sources/format.py:45-60.  `transform` is decoding the data followed by TRANSFORM; `extra` are the EXTRA_EXCEPTIONS. -/
def formatProvide {δ : Type} (extra : Exc → Bool) (transform : δ → Out Cfg) (data : δ) : Out Cfg :=
  match transform data with
  | .raise e => if baseExceptions e || extra e then .raise .configurationError else .raise e
  | .ok c => if c.isDict then .ok c else .raise .configurationError

/-- The loop over source classes, /repo/satella/configuration/sources/file.py:48-58; an OSError is rethrown by the decorator, line 42. -/
def fileLoop {δ : Type} (data : δ) : List (δ → Out Cfg) → Out Cfg
  | [] => .raise .configurationError
  | p :: ps =>
    match p data with
    | .ok c => if c.isDict then .ok c else fileLoop data ps
    | .raise e => if e = .configurationError then fileLoop data ps else if e = osError then .raise .configurationError else .raise e

/-- `FileSource.provide`, /repo/satella/configuration/sources/file.py:42-58; `read` is opening and reading the file, the list is what each source class would make of the data. -/
def fileProvide {δ : Type} (read : Out δ) (ps : List (δ → Out Cfg)) : Out Cfg :=
  match read with
  | .raise e => if e = osError then .raise .configurationError else .raise e
  | .ok data => fileLoop data ps

mutual
/-- What is found under a path.  A file comes with what FileSource would provide for it; a directory with its listing in the order of os.listdir, or `fails` if it cannot be listed.  (Part of the model of `DirectorySource`, /repo/satella/configuration/sources/file.py:61-120.) -/
inductive Node where
  | file (o : Out Cfg)
  | dir (l : Listing)
  | special
/-- a listing; every name with whether fname_filter accepts it.  (Part of the model of `DirectorySource`, /repo/satella/configuration/sources/file.py:61-120.) -/
inductive Listing where
  | fails
  | nil
  | cons (accepted : Bool) (n : Node) (l : Listing)
end

mutual
/-- one turn of the loop of get_sources_from_directory, /repo/satella/configuration/sources/file.py:106-113 -/
def Node.sources (onFail : Nat) (scan : Bool) : Node → Out (List (Src Cfg))
  | .file o => .ok [.leaf o]
  | .dir l => if scan then l.sources onFail scan else .ok []
  | .special => .ok []
/-- `get_sources_from_directory`, /repo/satella/configuration/sources/file.py:89-115 -/
def Listing.sources (onFail : Nat) (scan : Bool) : Listing → Out (List (Src Cfg))
  | .fails => if onFail = SILENT then .ok [] else .raise .configurationError
  | .nil => .ok []
  | .cons false _ l => l.sources onFail scan
  | .cons true n l =>
    match n.sources onFail scan with
    | .raise e => .raise e
    | .ok a => match l.sources onFail scan with
      | .raise e => .raise e
      | .ok b => .ok (a ++ b)
end

/-- `DirectorySource.provide`, /repo/satella/configuration/sources/file.py:117-120 -/
def directoryProvide (onFail : Nat) (scan : Bool) (l : Listing) : Out Cfg :=
  match l.sources onFail scan with
  | .raise e => .raise e
  | .ok ss => (Src.merging onFail true (Srcs.ofList ss)).value

/-! ## Specification -/

mutual
/-- what the accepted regular files provide, in order, those of subdirectories included if wanted -/
def Node.files (scan : Bool) : Node → List (Out Cfg)
  | .file o => [o]
  | .dir l => if scan then l.files scan else []
  | .special => []
def Listing.files (scan : Bool) : Listing → List (Out Cfg)
  | .fails => []
  | .nil => []
  | .cons accepted n l => (if accepted then n.files scan else []) ++ l.files scan
end

mutual
/-- every directory gone into can be listed -/
def Node.Readable (scan : Bool) : Node → Prop
  | .dir l => scan = true → l.Readable scan
  | _ => True
def Listing.Readable (scan : Bool) : Listing → Prop
  | .fails => False
  | .nil => True
  | .cons accepted n l => (accepted = true → n.Readable scan) ∧ l.Readable scan
end

/-! ## C55 -/

mutual
theorem node_sources (onFail : Nat) (scan : Bool) : ∀ n : Node, (onFail = SILENT ∨ n.Readable scan) → n.sources onFail scan = .ok ((n.files scan).map Src.leaf)
  | .file o, _ => rfl
  | .special, _ => rfl
  | .dir l, h => by
    simp only [Node.sources, Node.files]
    cases scan with
    | false => rfl
    | true => exact listing_sources onFail true l (h.imp id (fun h => h rfl))
theorem listing_sources (onFail : Nat) (scan : Bool) : ∀ l : Listing, (onFail = SILENT ∨ l.Readable scan) → l.sources onFail scan = .ok ((l.files scan).map Src.leaf)
  | .fails, h => by
    rcases h with h | h
    · simp [Listing.sources, h, Listing.files]
    · exact absurd h (by simp [Listing.Readable])
  | .nil, _ => rfl
  | .cons false n l, h => by
    simp only [Listing.sources, Listing.files]
    rw [listing_sources onFail scan l (h.imp id (fun h => h.2))]
    simp
  | .cons true n l, h => by
    simp only [Listing.sources, Listing.files]
    rw [node_sources onFail scan n (h.imp id (fun h => h.1 rfl)), listing_sources onFail scan l (h.imp id (fun h => h.2))]
    simp
end

mutual
theorem node_unreadable (onFail : Nat) (scan : Bool) (ho : onFail ≠ SILENT) : ∀ n : Node, ¬ n.Readable scan → n.sources onFail scan = .raise .configurationError
  | .file o, h => absurd trivial h
  | .special, h => absurd trivial h
  | .dir l, h => by
    cases scan with
    | false => exact absurd (fun h => by cases h) h
    | true =>
      simp only [Node.sources, if_true]
      exact listing_unreadable onFail true ho l (fun hl => h (fun _ => hl))
theorem listing_unreadable (onFail : Nat) (scan : Bool) (ho : onFail ≠ SILENT) : ∀ l : Listing, ¬ l.Readable scan → l.sources onFail scan = .raise .configurationError
  | .fails, _ => by simp [Listing.sources, ho]
  | .nil, h => absurd trivial h
  | .cons false n l, h => by
    simp only [Listing.sources]
    exact listing_unreadable onFail scan ho l (fun hl => h ⟨fun h => (by cases h), hl⟩)
  | .cons true n l, h => by
    simp only [Listing.sources]
    by_cases hn : n.Readable scan
    · rw [node_sources onFail scan n (Or.inr hn), listing_unreadable onFail scan ho l (fun hl => h ⟨fun _ => hn, hl⟩)]
    · rw [node_unreadable onFail scan ho n hn]
end

/-- **C55, DirectorySource.** It provides the merge, in listing order, of what the accepted regular files provide, those in subdirectories included if asked for, and directories that cannot be listed are skipped
if failures are to be ignored; otherwise they make it fail.  (`merged` is what a MergingSource of those files provides: see `C26_merging`.) -/
theorem C55_directory (onFail : Nat) (scan : Bool) (l : Listing) :
    ((onFail = SILENT ∨ l.Readable scan) → directoryProvide onFail scan l = merged onFail true (l.files scan)) ∧
    (onFail ≠ SILENT → ¬ l.Readable scan → directoryProvide onFail scan l = .raise .configurationError) := by
  refine ⟨?_, ?_⟩
  · intro h
    simp only [directoryProvide, listing_sources onFail scan l h, Src.value, values_ofList, List.map_map]
    have : (Src.value ∘ Src.leaf : Out Cfg → Out Cfg) = id := by funext o; rfl
    rw [this, List.map_id]
  · intro ho h
    simp only [directoryProvide, listing_unreadable onFail scan ho l h]

/-- **C55, ignoring failures.** With failures ignored and only ConfigurationErrors among them, it provides the merge of what could be loaded, and fails only if there are files and none could be. -/
theorem C55_directory_silent (scan : Bool) (l : Listing) (h : ∀ o ∈ l.files scan, (∃ c, o = .ok c ∧ c.isDict = true) ∨ o = .raise .configurationError) :
    (l.files scan ≠ [] → (∀ o ∈ l.files scan, o = .raise .configurationError) → directoryProvide SILENT scan l = .raise .configurationError) ∧
    (l.files scan = [] ∨ (∃ o ∈ l.files scan, o ≠ .raise .configurationError) → directoryProvide SILENT scan l = .ok (mergeAll (provided (l.files scan)))) := by
  rw [(C55_directory SILENT scan l).1 (Or.inl rfl)]
  have hf := firstFatal_ok SILENT (l.files scan) (fun o ho => (h o ho).imp id (fun h => ⟨rfl, h⟩))
  simp only [merged, hf]
  have : provided (l.files scan) = [] ↔ ∀ o ∈ l.files scan, o = .raise .configurationError := by
    generalize l.files scan = fs at h
    clear hf
    induction fs with
    | nil => simp [provided]
    | cons o fs ih =>
      have ih := ih (fun o ho => h o (by simp [ho]))
      rcases h o (by simp) with ⟨c, rfl, _⟩ | rfl
      · simp [provided]
      · simp [provided, ih]
  refine ⟨?_, ?_⟩
  · intro h2 h3
    rw [if_pos ⟨this.2 h3, h2, trivial⟩]
  · intro h1
    rw [if_neg]
    rintro ⟨h2, h3, _⟩
    rcases h1 with h1 | ⟨o, ho, h1⟩
    · exact h3 h1
    · exact h1 (this.1 h2 o ho)

/-- one file that loads, one that does not, and a subdirectory -/
def exListing : Listing :=
  .cons true (.file (.ok (.dict () (.cons 1 (.atom 1) .nil)))) (.cons false (.file (.raise .valueError))
    (.cons true (.dir (.cons true (.file (.raise .configurationError)) .fails)) (.cons true .special .nil)))

example : ∀ o ∈ exListing.files true, (∃ c, o = .ok c ∧ c.isDict = true) ∨ o = .raise .configurationError := by
  intro o ho
  simp only [exListing, Listing.files, Node.files, if_true, List.cons_append, List.nil_append, List.append_nil, List.mem_cons, List.not_mem_nil, or_false, Bool.false_eq_true, if_false] at ho
  rcases ho with rfl | rfl
  · exact Or.inl ⟨_, rfl, rfl⟩
  · exact Or.inr rfl

/-- **C55, FileSource.** If the file can be read, it provides what the first format able to parse it as a dictionary gives (unable: fails with ConfigurationError or gives something else), and fails with ConfigurationError
if none is able; if it cannot be read, it fails with ConfigurationError; any other error of reading, or of a format that is tried, is raised as it is, except that an OSError is a ConfigurationError. -/
theorem C55_file {δ : Type} (ps : List (δ → Out Cfg)) :
    (∀ data pre p post c, ps = pre ++ p :: post → (∀ q ∈ pre, q data = .raise .configurationError ∨ ∃ c, q data = .ok c ∧ c.isDict = false) → p data = .ok c → c.isDict = true →
      fileProvide (.ok data) ps = .ok c) ∧
    (∀ data, (∀ q ∈ ps, q data = .raise .configurationError ∨ ∃ c, q data = .ok c ∧ c.isDict = false) → fileProvide (.ok data) ps = .raise .configurationError) ∧
    fileProvide (.raise osError) ps = .raise .configurationError ∧
    (∀ e, e ≠ osError → fileProvide (.raise e) ps = .raise e) ∧
    (∀ data pre p post e, ps = pre ++ p :: post → (∀ q ∈ pre, q data = .raise .configurationError ∨ ∃ c, q data = .ok c ∧ c.isDict = false) → p data = .raise e → e ≠ .configurationError →
      fileProvide (.ok data) ps = .raise (if e = osError then .configurationError else e)) := by
  have skip : ∀ (data : δ) (pre l : List (δ → Out Cfg)), (∀ q ∈ pre, q data = .raise .configurationError ∨ ∃ c, q data = .ok c ∧ c.isDict = false) → fileLoop data (pre ++ l) = fileLoop data l := by
    intro data pre l h
    induction pre with
    | nil => rfl
    | cons q pre ih =>
      have ih := ih (fun q hq => h q (by simp [hq]))
      rcases h q (by simp) with hq | ⟨c, hq, hc⟩
      · simp [fileLoop, hq, ih]
      · simp [fileLoop, hq, hc, ih]
  refine ⟨?_, ?_, by simp [fileProvide], fun e he => by simp [fileProvide, he], ?_⟩
  · rintro data pre p post c rfl hpre hp hc
    simp only [fileProvide]
    rw [skip data pre _ hpre]
    simp [fileLoop, hp, hc]
  · intro data h
    simp only [fileProvide]
    have := skip data ps [] h
    rw [List.append_nil] at this
    rw [this]; rfl
  · rintro data pre p post e rfl hpre hp he
    simp only [fileProvide]
    rw [skip data pre _ hpre]
    simp only [fileLoop, hp, if_neg he]
    split <;> rfl

/-- **C55, formats.** A format source provides only dictionaries; it fails with ConfigurationError if the data cannot be decoded or parsed (with one of the errors it expects) or is not a dictionary; any other error (a fault of the parser itself) is raised as it is. -/
theorem C55_format {δ : Type} (extra : Exc → Bool) (transform : δ → Out Cfg) (data : δ) :
    (∀ c, formatProvide extra transform data = .ok c ↔ transform data = .ok c ∧ c.isDict = true) ∧
    (∀ e, transform data = .raise e → e ∈ [.typeError, .valueError, .keyError, .indexError] ∨ extra e = true → formatProvide extra transform data = .raise .configurationError) ∧
    (∀ e, transform data = .raise e → e ∉ [.typeError, .valueError, .keyError, .indexError] → extra e = false → formatProvide extra transform data = .raise e) ∧
    (∀ c, transform data = .ok c → c.isDict = false → formatProvide extra transform data = .raise .configurationError) := by
  refine ⟨?_, ?_, ?_, ?_⟩
  · intro c
    simp only [formatProvide]
    cases transform data with
    | raise e => simp only; split <;> simp
    | ok c' =>
      simp only
      split
      · rename_i h; constructor
        · intro hc; injection hc with hc; subst hc; exact ⟨rfl, h⟩
        · intro hc; exact hc.1
      · rename_i h; constructor
        · intro hc; cases hc
        · rintro ⟨hc, hd⟩; injection hc with hc; subst hc; exact absurd hd h
  · intro e h1 h2
    have : (baseExceptions e || extra e) = true := by
      rcases h2 with h2 | h2
      · simp only [List.mem_cons, List.not_mem_nil, or_false] at h2
        rcases h2 with rfl | rfl | rfl | rfl <;> rfl
      · simp [h2]
    simp [formatProvide, h1, this]
  · intro e h1 h2 h3
    have : baseExceptions e = false := by
      cases e <;> first | rfl | (exact absurd (by simp) h2)
    simp [formatProvide, h1, this, h3]
  · intro c h1 h2
    simp [formatProvide, h1, h2]

/-- Data that do not decode, and a parser that runs out of memory. -/
example : formatProvide (fun _ => false) (fun (_ : Unit) => .raise .valueError) () = .raise .configurationError ∧
    formatProvide (fun _ => false) (fun (_ : Unit) => .raise (.other 7)) () = .raise (.other 7) := ⟨rfl, rfl⟩

end Verif.Config
