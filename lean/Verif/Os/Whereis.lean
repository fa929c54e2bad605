/-!
# Looking for programs, and becoming a daemon

`/repo/satella/os/misc.py:10-73` and `/repo/satella/os/daemon.py:23-94`, on POSIX.
-/
namespace Verif.Whereis

/-- What `stat.filemode` depends on for the letter `x`: permission bits of the owner, group and others
to execute, set-user-id, set-group-id and sticky; and whether the thing is a directory.  (Part of the model of `_whereis`, /repo/satella/os/misc.py:47-57.) -/
structure Mode where
  ux : Bool
  gx : Bool
  ox : Bool
  setuid : Bool
  setgid : Bool
  sticky : Bool
  dir : Bool
  deriving Repr, DecidableEq

/-- part of the model of `_whereis`, /repo/satella/os/misc.py:47-57 -/
inductive Exc where
  | notFound | notADirectory | permission | other (n : Nat)
  deriving Repr, DecidableEq

/-- `'x' in stat.filemode(mode)`, `/repo/satella/os/misc.py:51`: with set-user-id, set-group-id or the
sticky bit the letter is `s` or `t` in place of the `x`. -/
def hasX (m : Mode) : Bool := (m.ux && !m.setuid) || (m.gx && !m.setgid) || (m.ox && !m.sticky)

/-- What the file system answers.  (Part of the model of `safe_listdir`, /repo/satella/os/misc.py:33-44.) -/
structure Fs where
  listdir : String → Except Exc (List String)
  stat : String → Except Exc Mode

/-- `safe_listdir`, `/repo/satella/os/misc.py:33-44`. -/
def safeListdir (fs : Fs) (dir : String) : Except Exc (List String) :=
  match fs.listdir dir with
  | .ok l => .ok l
  | .error .notFound => .ok []
  | .error .notADirectory => .ok []
  | .error e => .error e

/-- `os.path.join(directory, file)`, `/repo/satella/os/misc.py:49`, of a plain name. -/
def join (dir file : String) : String :=
  if dir = "" then file else if dir.endsWith "/" then dir ++ file else dir ++ "/" ++ file

/-- The loop of `_whereis`, `/repo/satella/os/misc.py:47-57`, on POSIX, where the only extension is the
empty one: the paths given before the end, or before the exception. -/
def look (fs : Fs) (dir name : String) : List String → List String × Option Exc
  | [] => ([], none)
  | file :: rest =>
    match fs.stat (join dir file) with
    | .error .notFound => look fs dir name rest
    | .error e => ([], some e)
    | .ok m =>
      let r := look fs dir name rest
      if hasX m && file == name then (join dir file :: r.1, r.2) else r

/-- `whereis`, `/repo/satella/os/misc.py:10-30`, over the directories of PATH. -/
def whereis (fs : Fs) (name : String) : List String → List String × Option Exc
  | [] => ([], none)
  | dir :: rest =>
    match safeListdir fs dir with
    | .error e => ([], some e)
    | .ok files =>
      match look fs dir name files with
      | (l, some e) => (l, some e)
      | (l, none) => let r := whereis fs name rest; (l ++ r.1, r.2)

/-! ## Becoming a daemon -/

/-- What a process does, as others may see it.  (Part of the model of `_double_fork`, /repo/satella/os/daemon.py:84-94.) -/
inductive Act where
  | umask0 | fork | setsid | chdirRoot | closeStd | devNull | seteuid (n : Nat) | setegid (n : Nat)
  deriving Repr, DecidableEq

/-- How a user or a group is given.  (Part of the model of `_double_fork`, /repo/satella/os/daemon.py:84-94.) -/
inductive Id where
  | none | num (n : Nat) | name (s : String)
  deriving Repr, DecidableEq

/-- part of the model of `_double_fork`, /repo/satella/os/daemon.py:84-94 -/
inductive DExc where
  | keyError | attributeError | permission
  deriving Repr, DecidableEq

/-- What the daemon (the last child) runs: the acts, and the exception if there was one. The parents
only call `exit_via`, which is assumed not to return. `_double_fork`, `/repo/satella/os/daemon.py:84-94`. -/
def doubleFork : List Act := [.umask0, .fork, .setsid, .fork, .chdirRoot]

/-- `_parse_ug(uid, pwd, 'pw_uid', os.seteuid)`, `/repo/satella/os/daemon.py:61` and `:65-70`. `root` is whether the
process may change its user. -/
def setUser (users : String → Option Nat) (root : Bool) : Id → List Act × Option DExc
  | .none => ([], none)
  | .num n => if root then ([.seteuid n], none) else ([], some .permission)
  | .name s =>
    match users s with
    | none => ([], some .keyError)
    | some n => if root then ([.seteuid n], none) else ([], some .permission)

/-- `_parse_ug(gid, grp, 'gr_gid', os.setegid)`, `/repo/satella/os/daemon.py:62` and `:65-70`: a name is looked
up with `grp.getpwnam`, which does not exist. -/
def setGroup (root : Bool) : Id → List Act × Option DExc
  | .none => ([], none)
  | .num n => if root then ([.setegid n], none) else ([], some .permission)
  | .name _ => ([], some .attributeError)

/-- Whether the process is still root after changing the user to this one (`seteuid`,
`/repo/satella/os/daemon.py:61`). -/
def stillRoot (root : Bool) (acts : List Act) : Bool :=
  acts.foldl (fun r a => match a with | .seteuid n => n == 0 | _ => r) root

/-- `daemonize`, `/repo/satella/os/daemon.py:23-62`, in the process that goes on. -/
def daemonize (users : String → Option Nat) (root : Bool) (redirect : Bool) (uid gid : Id) : List Act × Option DExc :=
  let acts := doubleFork ++ [.closeStd] ++ (if redirect then [.devNull] else [])
  match setUser users root uid with
  | (l, some e) => (acts ++ l, some e)
  | (l, none) =>
    let r := setGroup (stillRoot root l) gid
    (acts ++ l ++ r.1, r.2)

/-! ## Specification -/

/-- `stat` of a listed name either works or the file has just been removed. -/
def Statable (fs : Fs) (dir : String) (files : List String) : Prop :=
  ∀ f ∈ files, (∃ m, fs.stat (join dir f) = .ok m) ∨ fs.stat (join dir f) = .error .notFound

/-- The directory has a file of the name that shows as executable. -/
def Found (fs : Fs) (name dir : String) : Prop :=
  ∃ files m, fs.listdir dir = .ok files ∧ name ∈ files ∧ fs.stat (join dir name) = .ok m ∧ hasX m = true

/-- Each directory can be listed, or does not exist or is not a directory; names in it are listed once. -/
def Listable (fs : Fs) (dir : String) : Prop :=
  (∃ files, fs.listdir dir = .ok files ∧ files.Nodup ∧ Statable fs dir files) ∨
  fs.listdir dir = .error .notFound ∨ fs.listdir dir = .error .notADirectory

/-- No special bit is set. -/
def Plain (m : Mode) : Prop := m.setuid = false ∧ m.setgid = false ∧ m.sticky = false

/-! ## Properties -/

theorem look_none (fs : Fs) (dir name : String) : ∀ files, Statable fs dir files → name ∉ files → look fs dir name files = ([], none) := by
  intro files
  induction files with
  | nil => intro _ _; rfl
  | cons f rest ih =>
    intro hs hn
    have ih := ih (fun x hx => hs x (List.mem_cons_of_mem _ hx)) (fun h => hn (List.mem_cons_of_mem _ h))
    have hne : (f == name) = false := by simp; rintro rfl; exact hn (List.mem_cons_self ..)
    rcases hs f (List.mem_cons_self ..) with ⟨m, hm⟩ | hm
    · simp [look, hm, ih, hne]
    · simp [look, hm, ih]

theorem look_spec (fs : Fs) (dir name : String) : ∀ files, Statable fs dir files → files.Nodup →
    (look fs dir name files).2 = none ∧
    ((name ∈ files ∧ ∃ m, fs.stat (join dir name) = .ok m ∧ hasX m = true) → (look fs dir name files).1 = [join dir name]) ∧
    (¬ (name ∈ files ∧ ∃ m, fs.stat (join dir name) = .ok m ∧ hasX m = true) → (look fs dir name files).1 = []) := by
  intro files
  induction files with
  | nil => intro _ _; simp [look]
  | cons f rest ih =>
    intro hs hn
    have hs' : Statable fs dir rest := fun x hx => hs x (List.mem_cons_of_mem _ hx)
    obtain ⟨hf, hn'⟩ := List.nodup_cons.1 hn
    by_cases hfn : f = name
    · subst hfn
      have hr := look_none fs dir f rest hs' hf
      rcases hs f (List.mem_cons_self ..) with ⟨m, hm⟩ | hm
      · cases hx : hasX m with
        | true => simp [look, hm, hx, hr]
        | false => simp [look, hm, hx, hr]
      · simp [look, hm, hr]
    · have ih := ih hs' hn'
      have hne : (f == name) = false := by simp [hfn]
      have hgo : look fs dir name (f :: rest) = look fs dir name rest := by
        rcases hs f (List.mem_cons_self ..) with ⟨m, hm⟩ | hm
        · simp [look, hm, hne]
        · simp [look, hm]
      rw [hgo]
      have hmem : name ∈ f :: rest ↔ name ∈ rest := by
        simp only [List.mem_cons, or_iff_right_iff_imp]; intro h; exact absurd h.symm hfn
      rw [hmem]
      exact ih

/-- **C188 (programs found)** If all directories of PATH can be listed or do not exist, `whereis` ends
without an exception and gives, in the order of PATH, one path for each directory that has a file of
the name showing an `x` in its mode, and nothing else. -/
theorem C188_found (fs : Fs) (name : String) (path : List String) (h : ∀ d ∈ path, Listable fs d) (hdec : ∀ d, Decidable (Found fs name d)) :
    whereis fs name path = ((path.filter (fun d => @decide (Found fs name d) (hdec d))).map (fun d => join d name), none) := by
  induction path with
  | nil => rfl
  | cons d path ih =>
    have ih := ih (fun x hx => h x (List.mem_cons_of_mem _ hx))
    rcases h d (List.mem_cons_self ..) with ⟨files, hl, hnd, hs⟩ | hl | hl
    · obtain ⟨h1, h2, h3⟩ := look_spec fs d name files hs hnd
      have hiff : Found fs name d ↔ (name ∈ files ∧ ∃ m, fs.stat (join d name) = .ok m ∧ hasX m = true) := by
        constructor
        · rintro ⟨fl, m, hfl, hmem, hm, hx⟩
          rw [hl] at hfl
          cases hfl
          exact ⟨hmem, m, hm, hx⟩
        · rintro ⟨hmem, m, hm, hx⟩
          exact ⟨files, m, hl, hmem, hm, hx⟩
      by_cases hf : Found fs name d
      · have e1 := h2 (hiff.1 hf)
        have : look fs d name files = ([join d name], none) := by rw [← e1, ← h1]
        simp [whereis, safeListdir, hl, this, ih, hf]
      · have e1 := h3 (fun hh => hf (hiff.2 hh))
        have : look fs d name files = ([], none) := by rw [← e1, ← h1]
        simp [whereis, safeListdir, hl, this, ih, hf]
    · have hf : ¬ Found fs name d := by rintro ⟨_, _, hfl, _⟩; rw [hl] at hfl; cases hfl
      simp [whereis, safeListdir, hl, look, ih, hf]
    · have hf : ¬ Found fs name d := by rintro ⟨_, _, hfl, _⟩; rw [hl] at hfl; cases hfl
      simp [whereis, safeListdir, hl, look, ih, hf]

/-- **C188 (what shows an x)** Of a file with no special bit, an `x` shows exactly if somebody may
execute it. -/
theorem C188_executable (m : Mode) (h : Plain m) : hasX m = true ↔ m.ux = true ∨ m.gx = true ∨ m.ox = true := by
  obtain ⟨h1, h2, h3⟩ := h
  simp [hasX, h1, h2, h3, or_assoc]

/-- The letters of `ls -l` that tell who may execute a file. -/
def letters (m : Mode) : List Char :=
  [if m.setuid then (if m.ux then 's' else 'S') else if m.ux then 'x' else '-',
   if m.setgid then (if m.gx then 's' else 'S') else if m.gx then 'x' else '-',
   if m.sticky then (if m.ox then 't' else 'T') else if m.ox then 'x' else '-']

/-- **C188 (what shows an x)** Of any file, `whereis` takes it as executable exactly if an `x` is among
these letters. -/
theorem C188_letters (m : Mode) : hasX m = true ↔ 'x' ∈ letters m := by
  have h1 : ('x' = 's') = False := by simp
  have h2 : ('x' = 'S') = False := by simp
  have h3 : ('x' = 't') = False := by simp
  have h4 : ('x' = 'T') = False := by simp
  have h5 : ('x' = '-') = False := by simp
  unfold hasX letters
  simp only [List.mem_cons, List.not_mem_nil, or_false, Bool.or_eq_true, Bool.and_eq_true, Bool.not_eq_true', or_assoc]
  refine or_congr ?_ (or_congr ?_ ?_)
  · cases m.setuid <;> cases m.ux <;> simp [h1, h2, h5]
  · cases m.setgid <;> cases m.gx <;> simp [h1, h2, h5]
  · cases m.sticky <;> cases m.ox <;> simp [h3, h4, h5]

/-- **C189 (only executable files), the violation** A directory of the name is given, as directories
show an `x`. -/
theorem C189_directory_violates : ∃ (fs : Fs) (m : Mode), Listable fs "/bin" ∧ fs.stat "/bin/tool" = .ok m ∧ m.dir = true ∧
    whereis fs "tool" ["/bin"] = (["/bin/tool"], none) := by
  refine ⟨⟨fun d => if d = "/bin" then .ok ["tool"] else .error .notFound, fun p => if p = "/bin/tool" then .ok ⟨true, true, true, false, false, false, true⟩ else .error .notFound⟩,
    _, Or.inl ⟨["tool"], rfl, by simp, ?_⟩, rfl, rfl, ?_⟩
  · intro f hf
    simp only [List.mem_singleton] at hf
    subst hf
    refine Or.inl ⟨_, if_pos ?_⟩
    decide +kernel
  · have : join "/bin" "tool" = "/bin/tool" := by decide +kernel
    simp [whereis, safeListdir, look, this, hasX]

/-- **C189 (all executable files), the violation** A file that only its owner may execute and that has
the set-user-id bit is executable, yet not given: its mode shows `s` in place of `x`. -/
theorem C189_setuid_violates : ∃ (fs : Fs) (m : Mode), Listable fs "/bin" ∧ fs.stat "/bin/su" = .ok m ∧ m.dir = false ∧ m.ux = true ∧
    whereis fs "su" ["/bin"] = ([], none) := by
  refine ⟨⟨fun d => if d = "/bin" then .ok ["su"] else .error .notFound, fun p => if p = "/bin/su" then .ok ⟨true, false, false, true, false, false, false⟩ else .error .notFound⟩,
    _, Or.inl ⟨["su"], rfl, by simp, ?_⟩, rfl, rfl, rfl, ?_⟩
  · intro f hf
    simp only [List.mem_singleton] at hf
    subst hf
    refine Or.inl ⟨_, if_pos ?_⟩
    decide +kernel
  · have : join "/bin" "su" = "/bin/su" := by decide +kernel
    simp [whereis, safeListdir, look, this, hasX]

/-- **C189 (one bad file), the violation** Any other file in a directory of PATH that can't be examined
(as a link into a directory of somebody else) ends the search with an exception. -/
theorem C189_permission_violates (fs : Fs) (dir other name : String) (rest : List String)
    (hl : fs.listdir dir = .ok (other :: rest)) (hs : fs.stat (join dir other) = .error .permission) (path : List String) :
    whereis fs name (dir :: path) = ([], some .permission) := by
  simp [whereis, safeListdir, hl, look, hs]

/-- **C189 (only executable files), the part that holds** Whatever happens, a path given is that of an
existing file of the name in a directory of PATH, and its mode shows an `x`. -/
theorem C189_sound_partial (fs : Fs) (name : String) (path : List String) : ∀ p ∈ (whereis fs name path).1, ∃ d ∈ path, p = join d name ∧ Found fs name d := by
  have hlook : ∀ d files, ∀ p ∈ (look fs d name files).1, p = join d name ∧ name ∈ files ∧ ∃ m, fs.stat (join d name) = .ok m ∧ hasX m = true := by
    intro d files
    induction files with
    | nil => simp [look]
    | cons f rest ih =>
      intro p hp
      simp only [look] at hp
      split at hp
      · obtain ⟨h1, h2, h3⟩ := ih p hp; exact ⟨h1, List.mem_cons_of_mem _ h2, h3⟩
      · simp at hp
      · rename_i m hm
        split at hp
        · rename_i hx
          simp only [Bool.and_eq_true, beq_iff_eq] at hx
          obtain ⟨hx, rfl⟩ := hx
          rcases List.mem_cons.1 hp with rfl | hp
          · exact ⟨rfl, by simp, m, hm, hx⟩
          · obtain ⟨h1, h2, h3⟩ := ih p hp; exact ⟨h1, List.mem_cons_of_mem _ h2, h3⟩
        · obtain ⟨h1, h2, h3⟩ := ih p hp; exact ⟨h1, List.mem_cons_of_mem _ h2, h3⟩
  induction path with
  | nil => simp [whereis]
  | cons d path ih =>
    intro p hp
    simp only [whereis] at hp
    cases hl : safeListdir fs d with
    | error e => simp [hl] at hp
    | ok files =>
      have hlist : files = [] ∨ fs.listdir d = .ok files := by
        simp only [safeListdir] at hl
        split at hl
        · rename_i l h; right; rw [h]; exact hl
        · left; cases hl; rfl
        · left; cases hl; rfl
        · cases hl
      have hfound : ∀ p ∈ (look fs d name files).1, p = join d name ∧ Found fs name d := by
        intro p hp
        obtain ⟨h1, h2, m, h3, h4⟩ := hlook d files p hp
        rcases hlist with rfl | hlist
        · simp at h2
        · exact ⟨h1, files, m, hlist, h2, h3, h4⟩
      simp only [hl] at hp
      split at hp
      · rename_i l e heq
        obtain ⟨h1, h2⟩ := hfound p (by rw [heq]; exact hp)
        exact ⟨d, by simp, h1, h2⟩
      · rename_i l heq
        rcases List.mem_append.1 hp with hp | hp
        · obtain ⟨h1, h2⟩ := hfound p (by rw [heq]; exact hp)
          exact ⟨d, by simp, h1, h2⟩
        · obtain ⟨d', h1, h2⟩ := ih p hp
          exact ⟨d', List.mem_cons_of_mem _ h1, h2⟩

/-- Who a user or a group is: none, or a number, given as such or as a name the system knows. -/
inductive Resolves (table : String → Option Nat) : Id → Option Nat → Prop
  | none : Resolves table .none none
  | num (n) : Resolves table (.num n) (some n)
  | name {s n} : table s = some n → Resolves table (.name s) (some n)

/-- **C190 (a daemon)** Without a group by name, and run by root if a user or a group is given (and
then not changing to an ordinary user before changing the group), `daemonize` completes in the
grandchild: the mask is cleared, the process forks, leads a session, forks, goes to `/`, closes the
standard streams, redirects them if asked, and sets the user and the group exactly as given. -/
theorem C190_daemon (users : String → Option Nat) (root redirect : Bool) (uid gid : Id) (u : Option Nat) (hu : Resolves users uid u)
    (hg : ∀ s, gid ≠ .name s) (hroot : (uid ≠ .none ∨ gid ≠ .none) → root = true) (horder : gid ≠ .none → u = none ∨ u = some 0) :
    ∃ g, Resolves (fun _ => none) gid g ∧ daemonize users root redirect uid gid =
      ([.umask0, .fork, .setsid, .fork, .chdirRoot, .closeStd] ++ (if redirect then [.devNull] else []) ++
        (u.map Act.seteuid).toList ++ (g.map Act.setegid).toList, none) := by
  cases gid with
  | name s => exact absurd rfl (hg s)
  | none =>
    refine ⟨none, .none, ?_⟩
    cases hu with
    | none => cases redirect <;> simp [daemonize, setUser, setGroup, doubleFork]
    | num n => have := hroot (by simp); subst this; cases redirect <;> simp [daemonize, setUser, setGroup, doubleFork]
    | name h => have := hroot (by simp); subst this; cases redirect <;> simp [daemonize, setUser, setGroup, doubleFork, h]
  | num n =>
    refine ⟨some n, .num n, ?_⟩
    have := hroot (by simp); subst this
    have ho := horder (by simp)
    cases hu with
    | none => cases redirect <;> simp [daemonize, setUser, setGroup, doubleFork, stillRoot]
    | num m =>
      have : m = 0 := by simpa using ho
      subst this
      cases redirect <;> simp [daemonize, setUser, setGroup, doubleFork, stillRoot]
    | @name s m h =>
      have : m = 0 := by simpa using ho
      subst this
      cases redirect <;> simp [daemonize, setUser, setGroup, doubleFork, stillRoot, h]

/-- **C191 (a group by name), the violation** A group given by its name always fails with
AttributeError, after the process was detached. -/
theorem C191_group_name_violates (users : String → Option Nat) (root redirect : Bool) (s : String) :
    (daemonize users root redirect .none (.name s)).2 = some .attributeError := by
  cases redirect <;> rfl

/-- **C191 (user and group), the violation** Root asking for an ordinary user and for a group gets a
PermissionError: the user is changed first, and then the group can't be. -/
theorem C191_user_first_violates (users : String → Option Nat) (redirect : Bool) (u g : Nat) (hu : u ≠ 0) :
    (daemonize users true redirect (.num u) (.num g)).2 = some .permission := by
  cases redirect <;> simp [daemonize, setUser, setGroup, stillRoot, hu]

/-- **C191 (an unknown user), the part that holds** The documented KeyError of an unknown user is
raised, and the user is not changed. -/
theorem C191_unknown_user_partial (users : String → Option Nat) (root redirect : Bool) (s : String) (gid : Id) (h : users s = none) :
    (daemonize users root redirect (.name s) gid).2 = some .keyError ∧ ∀ n, Act.seteuid n ∉ (daemonize users root redirect (.name s) gid).1 := by
  cases redirect <;> simp [daemonize, setUser, h, doubleFork]

/-! ## Examples -/

def fs1 : Fs where
  listdir := fun d => if d = "/bin" then .ok ["ls", "su"] else if d = "/usr/bin" then .ok ["ls"] else .error .notFound
  stat := fun p => if p = "/bin/ls" ∨ p = "/usr/bin/ls" then .ok ⟨true, true, true, false, false, false, false⟩ else .ok ⟨false, false, false, false, false, false, false⟩

example : whereis fs1 "ls" ["/nowhere", "/bin", "/usr/bin"] = (["/bin/ls", "/usr/bin/ls"], none) := by
  have h1 : join "/bin" "ls" = "/bin/ls" := by decide +kernel
  have h2 : join "/usr/bin" "ls" = "/usr/bin/ls" := by decide +kernel
  have h3 : join "/bin" "su" = "/bin/su" := by decide +kernel
  simp [whereis, safeListdir, fs1, look, h1, h2, h3, hasX]
example : ∀ d ∈ ["/nowhere", "/bin", "/usr/bin"], Listable fs1 d := by
  intro d hd
  simp at hd
  rcases hd with rfl | rfl | rfl
  · right; left; rfl
  · left; refine ⟨["ls", "su"], rfl, by decide, fun f _ => Or.inl ?_⟩
    unfold fs1; simp only; split <;> exact ⟨_, rfl⟩
  · left; refine ⟨["ls"], rfl, by decide, fun f _ => Or.inl ?_⟩
    unfold fs1; simp only; split <;> exact ⟨_, rfl⟩
example : daemonize (fun s => if s = "root" then some 0 else none) true true (.name "root") (.num 5) =
    ([.umask0, .fork, .setsid, .fork, .chdirRoot, .closeStd, .devNull, .seteuid 0, .setegid 5], none) := by decide

example : join "/bin/" "ls" = "/bin/ls" ∧ join "" "ls" = "ls" := by decide +kernel

end Verif.Whereis
