import Verif.Cache.Model
/-! # C09: LRUCacheDict -/
namespace Verif.Cache
open Verif

section
variable {K V : Type _} [DecidableEq K] (E : Env V)

/-- every stored value has a timestamp and a place in the LRU; keys are distinct -/
def LInv (maxSize : Nat) (s : LSt K V) : Prop :=
  (∀ k ∈ Dict.keys s.base.data, k ∈ s.lru) ∧ (∀ k ∈ Dict.keys s.base.data, Dict.has s.base.ts k = true) ∧
  Dict.WF s.base.data ∧ s.base.data.length ≤ maxSize

theorem mem_keys_del' {d : Dict K V} {k x : K} :
    x ∈ Dict.keys (Dict.del d k) ↔ x ∈ Dict.keys d ∧ x ≠ k := by
  rw [Dict.mem_keys_del]; exact And.comm

theorem lruRemove_mem {l : List K} {k : K} : ∀ x, x ∈ LRU.erase l k ↔ x ∈ l ∧ x ≠ k := by
  intro x; simp [LRU.erase]

theorem mem_markAsUsed {l : List K} {k x : K} : x ∈ LRU.markAsUsed l k ↔ x ∈ l ∨ x = k := by
  unfold LRU.markAsUsed
  split
  · simp
  · rename_i h
    have h : k ∈ l := by simpa using h
    simp only [List.mem_append, lruRemove_mem, List.mem_singleton]
    constructor
    · rintro (⟨h1, _⟩ | h1)
      · exact Or.inl h1
      · exact Or.inr h1
    · rintro (h1 | h1)
      · by_cases hx : x = k
        · exact Or.inr hx
        · exact Or.inl ⟨h1, hx⟩
      · exact Or.inr h1

theorem mem_add {l : List K} {k x : K} : x ∈ LRU.add l k ↔ x ∈ l ∨ x = k := by
  unfold LRU.add
  split
  · rename_i h
    constructor
    · exact Or.inl
    · rintro (h1 | h1)
      · exact h1
      · rw [h1]; exact h
  · simp

/-- what invalidating a key does to data and LRU, when everything stored has a timestamp -/
theorem invalidate_eq (s : LSt K V) (k : K)
    (hts : ∀ k ∈ Dict.keys s.base.data, Dict.has s.base.ts k = true) :
    (LSt.invalidate s k).base.data = Dict.del s.base.data k ∧
    (LSt.invalidate s k).lru = LRU.erase s.lru k ∧
    (∀ x, x ≠ k → Dict.has (LSt.invalidate s k).base.ts x = Dict.has s.base.ts x) := by
  have her : ∀ l : List K, k ∉ l → LRU.erase l k = l := by
    intro l hl
    simp only [LRU.erase]
    rw [List.filter_eq_self]
    intro a ha
    have : a ≠ k := fun hc => hl (hc ▸ ha)
    simpa using this
  have hee : ∀ l : List K, k ∉ LRU.erase l k := by
    intro l; simp [LRU.erase]
  by_cases hd : Dict.has s.base.data k = true
  · have hk : k ∈ Dict.keys s.base.data := (Dict.get?_isSome_iff _ _).1 hd
    have ht := hts k hk
    by_cases hl : k ∈ s.lru
    · have : LSt.invalidate s k = { base := (St.del s.base k).1, lru := LRU.erase s.lru k } := by
        simp only [LSt.invalidate, LSt.del, St.del, hd, ht, ↓reduceIte, lruRemove, hl, hee]
      rw [this]
      refine ⟨by simp [St.del, hd, ht], rfl, ?_⟩
      intro x hx
      have hx' : ¬ k = x := fun hc => hx hc.symm
      simp only [St.del, hd, ht, ↓reduceIte]
      simp [Dict.has, hx']
    · have : LSt.invalidate s k = { base := (St.del s.base k).1, lru := s.lru } := by
        simp only [LSt.invalidate, LSt.del, St.del, hd, ht, ↓reduceIte, lruRemove, hl]
      rw [this]
      refine ⟨by simp [St.del, hd, ht], (her _ hl).symm, ?_⟩
      intro x hx
      have hx' : ¬ k = x := fun hc => hx hc.symm
      simp only [St.del, hd, ht, ↓reduceIte]
      simp [Dict.has, hx']
  · have hdel : Dict.del s.base.data k = s.base.data := by
      have hk : k ∉ Dict.keys s.base.data := fun hc => hd ((Dict.get?_isSome_iff _ _).2 hc)
      simp only [Dict.del]
      rw [List.filter_eq_self]
      intro a ha
      have : a.1 ≠ k := fun hc => hk (hc ▸ List.mem_map_of_mem ha)
      simpa using this
    have : LSt.invalidate s k = { s with lru := LRU.erase s.lru k } := by
      by_cases hl : k ∈ s.lru
      · simp [LSt.invalidate, LSt.del, St.del, hd, lruRemove, hl]
      · simp [LSt.invalidate, LSt.del, St.del, hd, lruRemove, hl, her]
    rw [this]
    exact ⟨hdel.symm, rfl, fun _ _ => rfl⟩

theorem LInv.invalidate {n : Nat} {s : LSt K V} (h : LInv n s) (k : K) : LInv n (LSt.invalidate s k) := by
  obtain ⟨h1, h2, h3, h4⟩ := h
  obtain ⟨e1, e2, e3⟩ := invalidate_eq s k h2
  refine ⟨?_, ?_, ?_, ?_⟩
  · rw [e1, e2]
    intro x hx
    rw [mem_keys_del'] at hx
    exact (lruRemove_mem x).2 ⟨h1 x hx.1, hx.2⟩
  · rw [e1]
    intro x hx
    rw [mem_keys_del'] at hx
    rw [e3 x hx.2]; exact h2 x hx.1
  · rw [e1]; exact Dict.wf_del h3 k
  · rw [e1]; exact Nat.le_trans (Dict.length_del_le _ _) h4

/-- evicting with the oldest key `k`: it goes from both -/
theorem evict_cons {s : LSt K V} {k : K} {l : List K} (hl : s.lru = k :: l) (hnd : s.lru.Nodup)
    (h2 : ∀ k ∈ Dict.keys s.base.data, Dict.has s.base.ts k = true) :
    (LSt.evict s).base.data = Dict.del s.base.data k ∧ (LSt.evict s).lru = l ∧
    (∀ x, x ≠ k → Dict.has (LSt.evict s).base.ts x = Dict.has s.base.ts x) := by
  have he : LSt.evict s = LSt.invalidate { s with lru := l } k := by
    simp [LSt.evict, hl, LRU.evict]
  rw [he]
  obtain ⟨e1, e2, e3⟩ := invalidate_eq { s with lru := l } k h2
  refine ⟨e1, ?_, e3⟩
  rw [e2]
  simp only [LRU.erase]
  rw [List.filter_eq_self]
  intro a ha
  rw [hl] at hnd
  have : a ≠ k := fun hc => (List.nodup_cons.1 hnd).1 (hc ▸ ha)
  simpa using this

/-- What making room does.  `gone` are the keys it goes through, from the least recently used one. -/
structure RoomMade (maxSize : Nat) (s s' : LSt K V) : Prop where
  /-- an initial part of the use order goes, the rest keeps its order -/
  oldest_first : ∃ gone, s.lru = gone ++ s'.lru ∧
    (∀ k, k ∈ Dict.keys s'.base.data ↔ k ∈ Dict.keys s.base.data ∧ k ∉ gone)
  /-- values of remaining keys are untouched -/
  values : ∀ k ∈ Dict.keys s'.base.data, Dict.get? s'.base.data k = Dict.get? s.base.data k
  /-- there is room afterwards -/
  room : s'.base.data.length + 1 ≤ maxSize
  /-- no more is discarded than needed -/
  minimal : s'.base.data.length = min s.base.data.length (maxSize - 1)

theorem length_del_mem {d : Dict K V} (hw : Dict.WF d) {k : K} (h : k ∈ Dict.keys d) :
    (Dict.del d k).length + 1 = d.length := by
  induction d with
  | nil => simp [Dict.keys] at h
  | cons p d ih =>
    have hw' : Dict.WF d := by
      simp only [Dict.WF, List.map_cons, List.nodup_cons] at hw; exact hw.2
    have hn : p.1 ∉ Dict.keys d := by
      simp only [Dict.WF, List.map_cons, List.nodup_cons] at hw; exact hw.1
    simp only [Dict.del, List.filter_cons]
    by_cases hp : p.1 = k
    · subst hp
      simp only [ne_eq, not_true_eq_false, decide_false, Bool.false_eq_true, ↓reduceIte,
        List.length_cons, Nat.add_right_cancel_iff]
      rw [List.filter_eq_self.2]
      intro a ha
      have : a.1 ≠ p.1 := fun hc => hn (hc ▸ List.mem_map_of_mem ha)
      simpa using this
    · simp only [ne_eq, hp, not_false_eq_true, decide_true, ↓reduceIte, List.length_cons,
        Nat.add_right_cancel_iff]
      have hk : k ∈ Dict.keys d := by
        simp only [Dict.keys, List.map_cons, List.mem_cons] at h
        rcases h with h | h
        · exact absurd h.symm hp
        · exact h
      exact ih hw' hk

theorem makeRoom_spec {maxSize : Nat} (hm : 0 < maxSize) (n : Nat) :
    ∀ s : LSt K V, s.lru.length = n → LInv maxSize s → s.lru.Nodup →
      ∃ s', LSt.makeRoom maxSize s = some s' ∧ LInv maxSize s' ∧ s'.lru.Nodup ∧ RoomMade maxSize s s' := by
  induction n with
  | zero =>
    intro s hn hI hnd
    have hl : s.lru = [] := List.length_eq_zero_iff.1 hn
    have hd : s.base.data = [] := by
      cases hd : s.base.data with
      | nil => rfl
      | cons p d =>
        have := hI.1 p.1 (by rw [hd]; simp [Dict.keys])
        rw [hl] at this; simp at this
    refine ⟨s, ?_, hI, hnd, ⟨⟨[], by simp⟩, fun _ _ => rfl, by rw [hd]; simp; omega, by rw [hd]; simp⟩⟩
    rw [LSt.makeRoom, if_neg (by rw [hd]; simp)]
  | succ n ih =>
    intro s hn hI hnd
    by_cases hfull : s.base.data.length > maxSize - 1
    · cases hl : s.lru with
      | nil => simp [hl] at hn
      | cons k l =>
        obtain ⟨e1, e2, e3⟩ := evict_cons hl hnd hI.2.1
        have hnd' : l.Nodup := by rw [hl] at hnd; exact (List.nodup_cons.1 hnd).2
        have hkl : k ∉ l := by rw [hl] at hnd; exact (List.nodup_cons.1 hnd).1
        have hI' : LInv maxSize (LSt.evict s) := by
          refine ⟨?_, ?_, ?_, ?_⟩
          · rw [e1, e2]
            intro x hx
            rw [mem_keys_del'] at hx
            have := hI.1 x hx.1
            rw [hl] at this
            rcases List.mem_cons.1 this with h | h
            · exact absurd h hx.2
            · exact h
          · rw [e1]
            intro x hx
            rw [mem_keys_del'] at hx
            rw [e3 x hx.2]; exact hI.2.1 x hx.1
          · rw [e1]; exact Dict.wf_del hI.2.2.1 k
          · rw [e1]; exact Nat.le_trans (Dict.length_del_le _ _) hI.2.2.2
        obtain ⟨s', h1, h2, h3, h4⟩ := ih (LSt.evict s) (by rw [e2]; simp [hl] at hn; exact hn) hI'
          (by rw [e2]; exact hnd')
        refine ⟨s', ?_, h2, h3, ⟨?_, ?_, h4.room, ?_⟩⟩
        · rw [LSt.makeRoom, if_pos hfull]
          split
          · rename_i hc; simp [hl] at hc
          · exact h1
        · obtain ⟨gone, hg1, hg2⟩ := h4.oldest_first
          rw [e2] at hg1
          refine ⟨k :: gone, by rw [hl, hg1, List.cons_append], ?_⟩
          intro x
          rw [hg2, e1, mem_keys_del', List.mem_cons]
          constructor
          · rintro ⟨⟨a, b⟩, c⟩; exact ⟨a, fun h => h.elim b c⟩
          · rintro ⟨a, b⟩; exact ⟨⟨a, fun h => b (Or.inl h)⟩, fun h => b (Or.inr h)⟩
        · intro x hx
          rw [h4.values x hx, e1]
          obtain ⟨gone, _, hg2⟩ := h4.oldest_first
          have := ((hg2 x).1 hx).1
          rw [e1, mem_keys_del'] at this
          have hk : ¬ k = x := fun hc => this.2 hc.symm
          simp [hk]
        · rw [h4.minimal, e1]
          by_cases hk : k ∈ Dict.keys s.base.data
          · have := length_del_mem hI.2.2.1 hk
            omega
          · have : Dict.del s.base.data k = s.base.data := by
              simp only [Dict.del]
              rw [List.filter_eq_self]
              intro a ha
              have : a.1 ≠ k := fun hc => hk (hc ▸ List.mem_map_of_mem ha)
              simpa using this
            rw [this]
    · refine ⟨s, ?_, hI, hnd, ⟨⟨[], by simp⟩, fun _ _ => rfl, by omega, by omega⟩⟩
      rw [LSt.makeRoom, if_neg hfull]

theorem nodup_markAsUsed {l : List K} (h : l.Nodup) (k : K) : (LRU.markAsUsed l k).Nodup := by
  unfold LRU.markAsUsed
  split
  · rename_i hk
    rw [List.nodup_append]
    exact ⟨h, by simp, by intro a ha b hb; simp at hb; subst hb; rintro rfl; exact hk ha⟩
  · rw [List.nodup_append]
    refine ⟨h.filter _, by simp, ?_⟩
    intro a ha b hb; simp at hb; subst hb; rintro rfl
    exact ((lruRemove_mem a).1 ha).2 rfl

theorem nodup_add {l : List K} (h : l.Nodup) (k : K) : (LRU.add l k).Nodup := by
  unfold LRU.add
  split
  · exact h
  · rename_i hk
    rw [List.nodup_append]
    exact ⟨h, by simp, by intro a ha b hb; simp at hb; subst hb; rintro rfl; exact hk ha⟩

/-- the whole invariant -/
def Good (maxSize : Nat) (s : LSt K V) : Prop := LInv maxSize s ∧ s.lru.Nodup

theorem Good.lru {n : Nat} {s : LSt K V} (h : Good n s) {l : List K} (hn : l.Nodup)
    (hl : ∀ x ∈ s.lru, x ∈ l) : Good n { s with lru := l } :=
  ⟨⟨fun k hk => hl k (h.1.1 k hk), h.1.2⟩, hn⟩

theorem Good.mark {n : Nat} {s : LSt K V} (h : Good n s) (k : K) :
    Good n { s with lru := LRU.markAsUsed s.lru k } :=
  h.lru (nodup_markAsUsed h.2 k) (fun _ hx => mem_markAsUsed.2 (Or.inl hx))

theorem Good.add {n : Nat} {s : LSt K V} (h : Good n s) (k : K) :
    Good n { s with lru := LRU.add s.lru k } :=
  h.lru (nodup_add h.2 k) (fun _ hx => mem_add.2 (Or.inl hx))

theorem Good.invalidate {n : Nat} {s : LSt K V} (h : Good n s) (k : K) :
    Good n (LSt.invalidate s k) := by
  refine ⟨h.1.invalidate k, ?_⟩
  rw [(invalidate_eq s k h.1.2.1).2.1]
  exact h.2.filter _

theorem Good.onFailure {n : Nat} {s : LSt K V} (h : Good n s) (k : K) (t : Int) :
    Good n (LSt.onFailure E s k t) := by
  have hi := h.invalidate k
  unfold LSt.onFailure
  dsimp only
  split
  · refine ⟨⟨hi.1.1, ?_, hi.1.2.2⟩, hi.2⟩
    intro x hx
    have := hi.1.2.1 x hx
    simp only [Dict.has, Dict.get?_set] at this ⊢
    split
    · rfl
    · exact this
  · exact hi

theorem Good.put {n : Nat} {s : LSt K V} (h : Good n s) (k : K) (v : V) (t : Int) (m : List K)
    (l : List K) (hl : ∀ x, x ∈ s.lru ∨ x = k → x ∈ l) (hn : l.Nodup)
    (hr : s.base.data.length + 1 ≤ n ∨ k ∈ Dict.keys s.base.data) :
    Good n { base := { data := Dict.set s.base.data k v, ts := Dict.set s.base.ts k t, missed := m },
             lru := l } := by
  refine ⟨⟨?_, ?_, Dict.wf_set h.1.2.2.1 k v, ?_⟩, hn⟩
  · intro x hx
    rcases Dict.mem_keys_set.1 hx with h1 | h1
    · exact hl x (Or.inr h1)
    · exact hl x (Or.inl (h.1.1 x h1))
  · intro x hx
    simp only [Dict.has, Dict.get?_set]
    split
    · rfl
    · next hk =>
      rcases Dict.mem_keys_set.1 hx with h1 | h1
      · exact absurd h1.symm hk
      · exact h.1.2.1 x h1
  · rcases hr with hr | hr
    · have := Dict.length_set_le s.base.data k v
      simp only; omega
    · have := Dict.length_set_mem hr v
      have := h.1.2.2.2
      simp only; omega

theorem Good.set {n : Nat} (hn : 0 < n) {s : LSt K V} (h : Good n s) (k : K) (v : V) (t : Int) :
    ∃ s', LSt.set n s k v t = some s' ∧ Good n s' := by
  obtain ⟨s1, h1, h2, h3, h4⟩ := makeRoom_spec hn _ s rfl h.1 h.2
  refine ⟨_, by simp only [LSt.set, h1]; rfl, ?_⟩
  exact Good.put ⟨h2, h3⟩ k v t _ _ (fun x hx => mem_markAsUsed.2 hx) (nodup_markAsUsed h3 k)
    (Or.inl h4.room)

theorem Good.complete {n : Nat} (hn : 0 < n) {s : LSt K V} (h : Good n s) (k : K) (g : Got V) (t : Int) :
    ∃ c, LSt.complete E n s k g t = some c ∧ Good n c.1 := by
  cases g with
  | ok v =>
    obtain ⟨s1, h1, h2⟩ := h.set hn k v t
    exact ⟨_, by simp only [LSt.complete, h1, Option.map_some]; rfl, h2.add k⟩
  | keyError =>
    have hf := h.onFailure E k t
    simp only [LSt.complete]
    split
    · exact ⟨_, rfl, hf.add k⟩
    · exact ⟨_, rfl, hf⟩
  | other e => exact ⟨_, rfl, h⟩

theorem Good.step {n : Nat} (hn : 0 < n) {s : LSt K V} (h : Good n s) (o : Op K V) :
    ∃ s' r, lstep E n s o = some (s', r) ∧ Good n s' := by
  cases o with
  | get k now g t =>
    have h1 := h.mark k
    simp only [lstep]
    split
    · obtain ⟨c, hc, hg⟩ := h1.complete E hn k g t
      exact ⟨_, _, by rw [hc]; rfl, hg⟩
    · exact ⟨_, _, rfl, h1⟩
  | lookup k now => exact ⟨_, _, rfl, h.mark k⟩
  | complete k g t =>
    obtain ⟨c, hc, hg⟩ := h.complete E hn k g t
    exact ⟨_, _, by simp only [lstep, hc, Option.map_some]; rfl, hg⟩
  | refresh k g t =>
    cases g with
    | ok v =>
      obtain ⟨s', h1, h2⟩ := h.set hn k v t
      exact ⟨_, _, by simp only [lstep, LSt.refresh, h1, Option.map_some]; rfl, h2⟩
    | keyError => exact ⟨_, _, rfl, h.onFailure E k t⟩
    | other e => exact ⟨_, _, rfl, h⟩
  | set k v t =>
    obtain ⟨s', h1, h2⟩ := h.set hn k v t
    exact ⟨_, _, by simp only [lstep, h1, Option.map_some]; rfl, h2⟩
  | feed k v stamp t =>
    by_cases hk : Dict.has s.base.data k = true
    · refine ⟨_, _, by simp only [lstep, LSt.feed, hk, ↓reduceIte, Option.map_some]; rfl, ?_⟩
      exact Good.put h k v _ _ _ (fun x hx => mem_add.2 hx) (nodup_add h.2 k)
        (Or.inr ((Dict.get?_isSome_iff _ _).1 hk))
    · obtain ⟨s1, h1, h2, h3, h4⟩ := makeRoom_spec hn _ s rfl h.1 h.2
      refine ⟨_, _, by simp only [lstep, LSt.feed, hk, h1]; rfl, ?_⟩
      exact Good.put ⟨h2, h3⟩ k v _ _ _ (fun x hx => mem_add.2 hx) (nodup_add h3 k) (Or.inl h4.room)
  | del k =>
    have hi := h.invalidate k
    by_cases hd : Dict.has s.base.data k = true
    · have hk := (Dict.get?_isSome_iff _ _).1 hd
      have ht := h.1.2.1 k hk
      have hl := h.1.1 k hk
      have hee : k ∉ LRU.erase s.lru k := by simp [LRU.erase]
      have e : LSt.del s k = (LSt.invalidate s k, none) := by
        simp [LSt.invalidate, LSt.del, St.del, hd, ht, lruRemove, hl, hee]
      exact ⟨_, _, by simp only [lstep, e]; rfl, hi⟩
    · have e : LSt.del s k = (s, some .keyError) := by
        simp [LSt.del, St.del, hd]
      exact ⟨_, _, by simp only [lstep, e]; rfl, h⟩
  | invalidate k => exact ⟨_, _, rfl, h.invalidate k⟩
  | hasInfo k t => exact ⟨_, _, rfl, h⟩

theorem good_empty (n : Nat) : Good n (LSt.empty : LSt K V) :=
  ⟨⟨by simp [LSt.empty, St.empty, Dict.keys], by simp [LSt.empty, St.empty, Dict.keys], by simp [LSt.empty, St.empty, Dict.wf_nil], by simp [LSt.empty, St.empty]⟩, by simp [LSt.empty]⟩

theorem Good.run {n : Nat} (hn : 0 < n) {s : LSt K V} (h : Good n s) (ops : List (Op K V)) :
    ∃ s', lrun E n s ops = some s' ∧ Good n s' := by
  induction ops generalizing s with
  | nil => exact ⟨s, rfl, h⟩
  | cons o os ih =>
    obtain ⟨s1, r, h1, h2⟩ := h.step E hn o
    obtain ⟨s2, h3, h4⟩ := ih h2
    exact ⟨s2, by simp only [lrun, h1]; exact h3, h4⟩

/-- C09: any history of lookups, assignments, feeds, deletions, invalidations and background refreshes on a
new LRUCacheDict with `max_size ≥ 1` returns from every call (making room terminates),
and at its end at most `max_size` values, all under different keys, are held. -/
theorem C09_lru_cache_bounded (maxSize : Nat) (hm : 0 < maxSize) (ops : List (Op K V)) :
    ∃ s, lrun E maxSize LSt.empty ops = some s ∧ s.base.data.length ≤ maxSize ∧
      (Dict.keys s.base.data).Nodup := by
  obtain ⟨s, h1, h2⟩ := (good_empty maxSize : Good maxSize (LSt.empty : LSt K V)).run E hm ops
  exact ⟨s, h1, h2.1.2.2.2, h2.1.2.2.1⟩

/-- C09: in every reachable state making room terminates, discards exactly an initial part of the
use order (so the least recently used entries), leaves the others as they were, discards no more than
needed and leaves room for one value. -/
theorem C09_discards_least_recently_used (maxSize : Nat) (hm : 0 < maxSize) (ops : List (Op K V))
    (s : LSt K V) (hs : lrun E maxSize LSt.empty ops = some s) :
    ∃ s', LSt.makeRoom maxSize s = some s' ∧ RoomMade maxSize s s' := by
  obtain ⟨s1, h1, h2⟩ := (good_empty maxSize : Good maxSize (LSt.empty : LSt K V)).run E hm ops
  rw [hs] at h1; cases h1
  obtain ⟨s', h3, _, _, h4⟩ := makeRoom_spec hm _ s rfl h2.1 h2.2
  exact ⟨s', h3, h4⟩

/-- C09: a lookup makes its key the most recently used one: it goes last in the use order,
the order of the others is kept; so does an assignment, after it has made room. -/
theorem C09_use_order (maxSize : Nat) (hm : 0 < maxSize) (ops : List (Op K V))
    (s : LSt K V) (hs : lrun E maxSize LSt.empty ops = some s) (k : K) (now t : Int) (v : V) :
    (∃ s' r, lstep E maxSize s (.lookup k now) = some (s', r) ∧
      s'.lru = (s.lru.filter (fun x => decide (x ≠ k))) ++ [k] ∧ s'.base = s.base) ∧
    (∃ s1 s', LSt.makeRoom maxSize s = some s1 ∧ lstep E maxSize s (.set k v t) = some (s', { out := .unit }) ∧
      s'.lru = (s1.lru.filter (fun x => decide (x ≠ k))) ++ [k] ∧
      ∀ x, Dict.get? s'.base.data x = if x = k then some v else Dict.get? s1.base.data x) := by
  have hmk : ∀ l : List K, LRU.markAsUsed l k = (l.filter (fun x => decide (x ≠ k))) ++ [k] := by
    intro l
    unfold LRU.markAsUsed
    split
    · rename_i hk
      congr 1
      rw [eq_comm, List.filter_eq_self]
      intro a ha
      have : a ≠ k := fun hc => hk (hc ▸ ha)
      simpa using this
    · rfl
  obtain ⟨s1, h3, _⟩ := C09_discards_least_recently_used E maxSize hm ops s hs
  refine ⟨⟨_, _, rfl, hmk _, rfl⟩, ⟨s1, _, h3, by simp only [lstep, LSt.set, h3, Option.map_some]; rfl, hmk _, ?_⟩⟩
  intro x
  simp only [St.set, Dict.get?_set]
  by_cases hx : x = k
  · simp [hx]
  · have : ¬ k = x := fun hc => hx hc.symm
    simp [hx, this]

theorem last_markAsUsed (l : List K) (k : K) : (LRU.markAsUsed l k).getLast? = some k := by
  unfold LRU.markAsUsed
  split <;> simp

theorem last_add {l : List K} {k : K} (h : k ∉ l ∨ l.getLast? = some k) :
    (LRU.add l k).getLast? = some k := by
  unfold LRU.add
  split
  · rename_i hk
    rcases h with h | h
    · exact absurd hk h
    · exact h
  · simp

/-- C09: whatever way a lookup obtains the value it returns (from the cache, from the getter, or the default),
its key is the most recently used one afterwards. -/
theorem C09_lookup_is_a_use (maxSize : Nat) (hm : 0 < maxSize) (ops : List (Op K V))
    (s : LSt K V) (hs : lrun E maxSize LSt.empty ops = some s) (k : K) (now t : Int) (g : Got V) (v : V)
    (s' : LSt K V) (r : Res V) (h : lstep E maxSize s (.get k now g t) = some (s', r))
    (hr : r.out = .val v) : s'.lru.getLast? = some k := by
  obtain ⟨s0, h0, hg⟩ := (good_empty maxSize : Good maxSize (LSt.empty : LSt K V)).run E hm ops
  rw [hs] at h0; cases h0
  have hg1 := hg.mark k
  simp only [lstep] at h
  split at h
  · cases g with
    | ok x =>
      simp only [LSt.complete, LSt.set] at h
      split at h
      · simp at h
      · simp only [Option.map_some, Option.some.injEq, Prod.mk.injEq] at h
        rw [← h.1]
        exact last_add (Or.inr (last_markAsUsed _ _))
    | keyError =>
      have hl : ∀ (s : LSt K V), Good maxSize s → k ∉ (LSt.onFailure E s k t).lru := by
        intro s hs
        have : (LSt.onFailure E s k t).lru = (LSt.invalidate s k).lru := by
          unfold LSt.onFailure; dsimp only; split <;> rfl
        rw [this, (invalidate_eq s k hs.1.2.1).2.1]
        simp [LRU.erase]
      simp only [LSt.complete] at h
      split at h
      · simp only [Option.map_some, Option.some.injEq, Prod.mk.injEq] at h
        rw [← h.1]
        exact last_add (Or.inl (hl _ hg1))
      · simp only [Option.map_some, Option.some.injEq, Prod.mk.injEq] at h
        rw [← h.2] at hr
        simp at hr
    | other n =>
      simp only [LSt.complete, Option.map_some, Option.some.injEq, Prod.mk.injEq] at h
      rw [← h.2] at hr
      simp at hr
  · simp only [Option.some.injEq, Prod.mk.injEq] at h
    rw [← h.1]
    exact last_markAsUsed _ _

end

/-! ### Non-vacuity -/

/-- fills a cache of size 2, uses key 1, then adds a third one: key 2 is discarded -/
def exL : List (Op Nat Nat) :=
  [.set 1 10 0, .set 2 20 1, .lookup 1 2, .get 3 3 (.ok 30) 3]

example : lrun { stale := 10, expiration := 60, failures := none, default := none } 2 LSt.empty exL =
    some { base := { data := [(1, 10), (3, 30)], ts := [(1, 0), (3, 3)], missed := [] }, lru := [1, 3] } := by
  simp [exL, lrun, lstep, LSt.set, LSt.makeRoom, LSt.empty, St.empty, St.set, LRU.markAsUsed, Dict.set,
    St.lookup, Dict.has, Dict.get?, LSt.complete, LSt.evict, LRU.evict, LSt.invalidate, LSt.del, St.del,
    Dict.del, lruRemove, LRU.erase, LRU.add]

/-- Observation (not part of C09): overwriting a key of a full cache first makes room, so it discards another
entry although none had to go. -/
theorem lru_overwrite_discards (E : Env Nat) : lrun E 2 LSt.empty
    ([.set 1 10 0, .set 2 20 1, .set 2 21 2] : List (Op Nat Nat)) =
    some { base := { data := [(2, 21)], ts := [(2, 2)], missed := [] }, lru := [2] } := by
  simp [lrun, lstep, LSt.set, LSt.makeRoom, LSt.empty, St.empty, St.set, LRU.markAsUsed, Dict.set,
    Dict.has, Dict.get?, LSt.evict, LRU.evict, LSt.invalidate, LSt.del, St.del,
    Dict.del, lruRemove, LRU.erase]

end Verif.Cache
