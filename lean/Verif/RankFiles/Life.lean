/-
  Model of the file handling of `MpiDistributor`: src/dga/mpi_aux.py:24-49, 87-103 (constructor, context manager, `open_file`, `close_file`,
  `delete_file`, `__del__`), used as `with mpi_distributor as file: … file[key] = value …` (four_point.py:300-310, optics.py:221-233,
  pairing_vertex.py:79-103).

  One rank; its file is `none` if it does not exist on disk.  A handle is a number, `open_` tells which handles are open.  Simplifications: a
  key is written in one step; the file is not deleted while a handle is open; disk errors other than a missing file do not occur.
-/
import Verif.RankFiles.Props

namespace DGA.RankFiles

/-- state of one rank: existence and content of its file, the handles created so far (open or not), the attribute `self.file`, and whether the
    attribute `fname` exists (an output path was given) -/
structure Rank (β : Type) where
  disk : Option (File β)
  handles : List Bool
  file : Option Nat
  fname : Bool

/-- h5py `File.close()`: closing a closed handle does nothing -/
def closeH {β : Type} (s : Rank β) (h : Nat) : Rank β := { s with handles := s.handles.set h false }

/-- mpi_aux.py:93-97 `close_file`: `None.close()` raises, which is swallowed -/
def closeFile {β : Type} (s : Rank β) : Rank β :=
  match s.file with
  | some h => closeH s h
  | none => s

/-- mpi_aux.py:24-33 `__init__`: mode 'a' keeps an existing file and creates a missing one; the handle is closed at once -/
def newRank {β : Type} (disk : Option (File β)) (outputPath : Bool) : Rank β :=
  if outputPath then closeFile ⟨some (disk.getD []), [true], some 0, true⟩ else ⟨disk, [], none, false⟩

/-- mpi_aux.py:87-91 `open_file`: mode 'r+' raises if the file is missing, a missing `fname` raises as well; both are swallowed and `self.file`
    stays what it was -/
def openFile {β : Type} (s : Rank β) : Rank β :=
  if s.fname && s.disk.isSome then { s with handles := s.handles ++ [true], file := some s.handles.length } else s

/-- mpi_aux.py:47-49 `__exit__`: an open h5py file is true, a closed one and `None` are false; returns `None`, so an exception is passed on -/
def exitFile {β : Type} (s : Rank β) : Rank β :=
  match s.file with
  | some h => if s.handles.getD h false then closeFile s else s
  | none => s

/-- `file[key] = value` on the object returned by `__enter__`; `none` = exception (`None`, closed file, existing key) -/
def putKey {β : Type} (s : Rank β) (k : Str) (v : β) : Option (Rank β) :=
  match s.file with
  | some h => if s.handles.getD h false then (s.disk.bind fun f => putGroup f k v).map fun f => { s with disk := some f } else none
  | none => none

/-- the assignments in the body one after the other; the second component tells whether the body ran to its end.  `stop` is the number of
    assignments after which some other statement of the body raises (`none`: it does not). -/
def runBody {β : Type} (s : Rank β) (ws : List (Str × β)) (stop : Option Nat) : Rank β × Bool :=
  match ws with
  | [] => (s, stop != some 0)
  | (k, v) :: ws =>
    if stop = some 0 then (s, false)
    else match putKey s k v with
    | some s' => runBody s' ws (stop.map (· - 1))
    | none => (s, false)

/-- the statement `with mpi_distributor as file: body`; mpi_aux.py:43-49.  The second component is `false` if an exception leaves it. -/
def withBlock {β : Type} (s : Rank β) (ws : List (Str × β)) (stop : Option Nat) : Rank β × Bool :=
  let r := runBody (openFile s) ws stop
  (exitFile r.1, r.2)

/-- mpi_aux.py:99-103 `delete_file`; a missing file or attribute is swallowed -/
def deleteFile {β : Type} (s : Rank β) : Rank β := if s.fname then { s with disk := none } else s

/-- one step of a program: a `with` block, or `delete_file` -/
inductive Op (β : Type) where
  | block (ws : List (Str × β)) (stop : Option Nat)
  | delete

/-- a history on one distributor; exceptions that leave a block are handled by the caller in any way -/
def runOps {β : Type} (s : Rank β) : List (Op β) → Rank β
  | [] => s
  | .block ws stop :: os => runOps (withBlock s ws stop).1 os
  | .delete :: os => runOps (deleteFile s) os

/-! ### properties -/

theorem putKey_handles {β : Type} (s s' : Rank β) (k : Str) (v : β) (h : putKey s k v = some s') :
    s'.handles = s.handles ∧ s'.file = s.file ∧ s'.fname = s.fname := by
  unfold putKey at h
  split at h
  · split at h
    · obtain ⟨f, -, rfl⟩ := Option.map_eq_some_iff.1 h
      exact ⟨rfl, rfl, rfl⟩
    · simp at h
  · simp at h

theorem runBody_handles {β : Type} (ws : List (Str × β)) (stop : Option Nat) (s : Rank β) :
    (runBody s ws stop).1.handles = s.handles ∧ (runBody s ws stop).1.file = s.file ∧ (runBody s ws stop).1.fname = s.fname := by
  induction ws generalizing s stop with
  | nil => exact ⟨rfl, rfl, rfl⟩
  | cons e ws ih =>
    unfold runBody
    split
    · exact ⟨rfl, rfl, rfl⟩
    · split
      · rename_i s' hs'
        obtain ⟨a, b, c⟩ := putKey_handles _ _ _ _ hs'
        rw [← a, ← b, ← c]
        exact ih _ _
      · exact ⟨rfl, rfl, rfl⟩

/-- all handles of the rank are closed -/
def AllClosed {β : Type} (s : Rank β) : Prop := ∀ b ∈ s.handles, b = false

theorem withBlock_closed {β : Type} (s : Rank β) (ws : List (Str × β)) (stop : Option Nat) (h : AllClosed s) :
    AllClosed (withBlock s ws stop).1 := by
  obtain ⟨h1, h2, -⟩ := runBody_handles ws stop (openFile s)
  unfold withBlock
  simp only
  generalize (runBody (openFile s) ws stop).1 = t at h1 h2
  by_cases ho : (s.fname && s.disk.isSome) = true
  · have e : openFile s = { s with handles := s.handles ++ [true], file := some s.handles.length } := by rw [openFile, if_pos ho]
    rw [e] at h1 h2
    simp only at h1 h2
    unfold exitFile
    rw [h2]
    simp only
    rw [h1]
    have : (s.handles ++ [true]).getD s.handles.length false = true := by simp
    rw [if_pos this]
    unfold closeFile closeH AllClosed
    rw [h2]
    simp only
    rw [h1]
    simp only [List.set_append_right, Nat.le_refl, Nat.sub_self, List.set_cons_zero, List.mem_append, List.mem_singleton]
    rintro b (hb | rfl)
    · exact h b hb
    · rfl
  · have e : openFile s = s := by rw [openFile, if_neg ho]
    rw [e] at h1 h2
    have hc : AllClosed t := by unfold AllClosed; rw [h1]; exact h
    have hx : exitFile t = t := by
      unfold exitFile
      split
      · rename_i f hf
        rw [if_neg]
        intro hg
        rw [List.getD_eq_getElem?_getD] at hg
        cases hq : t.handles[f]? with
        | none => rw [hq] at hg; simp at hg
        | some b =>
          rw [hq] at hg
          have := hc b (List.mem_of_getElem? hq)
          simp_all
      · rfl
    rw [hx]; exact hc

theorem runOps_closed {β : Type} (ops : List (Op β)) (s : Rank β) (h : AllClosed s) : AllClosed (runOps s ops) := by
  induction ops generalizing s with
  | nil => exact h
  | cons o ops ih =>
    cases o with
    | block ws stop => exact ih _ (withBlock_closed s ws stop h)
    | delete =>
      refine ih _ ?_
      unfold deleteFile
      split <;> exact h

/-- **C110 (a).** After every history of `with` blocks and deletions, whatever was written and whichever blocks were left by an exception, no
    file handle is left open. -/
theorem no_open_handle {β : Type} (disk : Option (File β)) (path : Bool) (ops : List (Op β)) : AllClosed (runOps (newRank disk path) ops) := by
  apply runOps_closed
  unfold newRank
  split
  · simp [AllClosed, closeFile, closeH]
  · simp [AllClosed]

/-- what the assignments of a body leave in the file: those before the first existing key and before the point of an exception -/
def written {β : Type} (f : File β) : List (Str × β) → Option Nat → File β × Bool
  | [], stop => (f, stop != some 0)
  | (k, v) :: ws, stop =>
    if stop = some 0 ∨ k ∈ f.map (·.1) then (f, false) else written (f ++ [(k, v)]) ws (stop.map (· - 1))

theorem putGroup_eq {β : Type} (f : File β) (k : Str) (v : β) : putGroup f k v = if k ∈ f.map (·.1) then none else some (f ++ [(k, v)]) := by
  unfold putGroup
  congr 1
  simp only [List.any_eq_true, beq_iff_eq, List.mem_map]

theorem runBody_open {β : Type} (ws : List (Str × β)) (stop : Option Nat) (s : Rank β) (h : Nat) (hf : s.file = some h)
    (ho : s.handles.getD h false = true) (f : File β) (hd : s.disk = some f) :
    (runBody s ws stop).1.disk = some (written f ws stop).1 ∧ (runBody s ws stop).2 = (written f ws stop).2 := by
  induction ws generalizing s stop f with
  | nil => exact ⟨hd, rfl⟩
  | cons e ws ih =>
    obtain ⟨k, v⟩ := e
    unfold runBody written
    by_cases hs : stop = some 0
    · simp [hs, hd]
    · rw [if_neg hs]
      have hp : putKey s k v = if k ∈ f.map (·.1) then none else some { s with disk := some (f ++ [(k, v)]) } := by
        unfold putKey
        rw [hf]
        simp only
        rw [if_pos ho, hd, Option.bind_some, putGroup_eq]
        split <;> rfl
      rw [hp]
      by_cases hk : k ∈ f.map (·.1)
      · rw [if_pos hk, if_pos (Or.inr hk)]
        exact ⟨hd, rfl⟩
      · rw [if_neg hk, if_neg (by simp [hs, hk])]
        exact ih (stop.map (· - 1)) { s with disk := some (f ++ [(k, v)]) } hf ho _ rfl

theorem exitFile_disk {β : Type} (s : Rank β) : (exitFile s).disk = s.disk ∧ (exitFile s).fname = s.fname := by
  unfold exitFile
  split
  · split
    · unfold closeFile closeH
      split <;> exact ⟨rfl, rfl⟩
    · exact ⟨rfl, rfl⟩
  · exact ⟨rfl, rfl⟩

/-- **C110 (b).** While the file exists a block writes exactly its assignments in order up to the first key that exists already or the point
    where the body raises, nothing that was in the file before is lost or changed, and an exception of the body is passed on. -/
theorem withBlock_value {β : Type} (s : Rank β) (hp : s.fname = true) (f : File β) (hd : s.disk = some f) (ws : List (Str × β)) (stop : Option Nat) :
    (withBlock s ws stop).1.disk = some (written f ws stop).1 ∧ (withBlock s ws stop).2 = (written f ws stop).2 ∧
    f <+: (written f ws stop).1 := by
  have e : openFile s = { s with handles := s.handles ++ [true], file := some s.handles.length } := by
    rw [openFile, if_pos (by simp [hp, hd])]
  obtain ⟨h1, h2⟩ := runBody_open ws stop (openFile s) s.handles.length (by rw [e]) (by rw [e]; simp) f (by rw [e]; exact hd)
  refine ⟨?_, h2, ?_⟩
  · unfold withBlock
    simp only
    rw [(exitFile_disk _).1, h1]
  · clear h1 h2 e hd
    induction ws generalizing f stop with
    | nil => exact List.prefix_rfl
    | cons w ws ih =>
      unfold written
      split
      · exact List.prefix_rfl
      · exact (List.prefix_append f _).trans (ih _ _)

/-- C110 (b): a block with fresh, distinct keys that is not left by an exception adds exactly its entries -/
theorem withBlock_complete {β : Type} (s : Rank β) (hp : s.fname = true) (f : File β) (hd : s.disk = some f) (ws : List (Str × β))
    (hk : ((f ++ ws).map (·.1)).Nodup) : (withBlock s ws none).1.disk = some (f ++ ws) ∧ (withBlock s ws none).2 = true := by
  have key : ∀ (ws : List (Str × β)) (f : File β), ((f ++ ws).map (·.1)).Nodup → written f ws none = (f ++ ws, true) := by
    intro ws
    induction ws with
    | nil => intro f _; simp [written]
    | cons w ws ih =>
      intro f hn
      unfold written
      rw [if_neg]
      · rw [Option.map_none, ih _ (by simpa using hn)]
        simp
      · rintro (h | h)
        · simp at h
        · rw [List.map_append, List.nodup_append] at hn
          exact hn.2.2 _ h w.1 (by simp) rfl
  obtain ⟨h1, h2, -⟩ := withBlock_value s hp f hd ws none
  rw [h1, h2, key ws f hk]
  exact ⟨rfl, rfl⟩

/-- C110 (b): a body that raises after `n` assignments leaves exactly these `n` in the file -/
theorem withBlock_interrupted {β : Type} (s : Rank β) (hp : s.fname = true) (f : File β) (hd : s.disk = some f) (ws : List (Str × β))
    (hk : ((f ++ ws).map (·.1)).Nodup) (n : Nat) (hn : n ≤ ws.length) :
    (withBlock s ws (some n)).1.disk = some (f ++ ws.take n) ∧ (withBlock s ws (some n)).2 = false := by
  have key : ∀ (n : Nat) (ws : List (Str × β)) (f : File β), n ≤ ws.length → ((f ++ ws).map (·.1)).Nodup →
      written f ws (some n) = (f ++ ws.take n, false) := by
    intro n
    induction n with
    | zero => intro ws f _ _; cases ws <;> simp [written]
    | succ n ih =>
      intro ws f hl hn
      cases ws with
      | nil => simp at hl
      | cons w ws =>
        unfold written
        rw [if_neg]
        · rw [Option.map_some, Nat.add_sub_cancel, ih ws _ (by simpa using hl) (by simpa using hn)]
          simp
        · rintro (h | h)
          · simp at h
          · rw [List.map_append, List.nodup_append] at hn
            exact hn.2.2 _ h w.1 (by simp) rfl
  obtain ⟨h1, h2, -⟩ := withBlock_value s hp f hd ws (some n)
  rw [h1, h2, key n ws f hn hk]
  exact ⟨rfl, rfl⟩

/-- **C110 (c).** A second run of the writer into a rank file that still holds the groups of an earlier run raises at the first assignment and
    leaves the file as it was (the constructor does not empty an existing file). -/
theorem leftover_groups_raise {β : Type} (f : File β) (k : Str) (v : β) (ws : List (Str × β)) (stop : Option Nat) (hk : k ∈ f.map (·.1)) :
    (newRank (some f) true).disk = some f ∧ (withBlock (newRank (some f) true) ((k, v) :: ws) stop).1.disk = some f ∧
    (withBlock (newRank (some f) true) ((k, v) :: ws) stop).2 = false := by
  have h0 : (newRank (some f) true).disk = some f := rfl
  obtain ⟨h1, h2, -⟩ := withBlock_value (newRank (some f) true) rfl f h0 ((k, v) :: ws) stop
  refine ⟨h0, ?_, ?_⟩
  · rw [h1, written, if_pos (Or.inr hk)]
  · rw [h2, written, if_pos (Or.inr hk)]

/-- **C110 (d).** After `delete_file`, or without an output path, a block that assigns anything raises at its first assignment; nothing is
    written and the file is not created again (the failure to open is swallowed, the failure to write is not).  `delete_file` may be repeated. -/
theorem no_file_raises {β : Type} (s : Rank β) (hc : AllClosed s) (h : s.fname = false ∨ s.disk = none)
    (e : Str × β) (ws : List (Str × β)) (stop : Option Nat) :
    (withBlock s (e :: ws) stop).2 = false ∧ (withBlock s (e :: ws) stop).1.disk = s.disk ∧ deleteFile (deleteFile s) = deleteFile s := by
  have e0 : openFile s = s := by
    rw [openFile, if_neg]
    rcases h with h | h <;> simp [h]
  have hp : putKey s e.1 e.2 = none := by
    unfold putKey
    split
    · rename_i i hi
      rw [if_neg]
      intro hg
      rw [List.getD_eq_getElem?_getD] at hg
      cases hq : s.handles[i]? with
      | none => rw [hq] at hg; simp at hg
      | some b => rw [hq] at hg; have := hc b (List.mem_of_getElem? hq); simp_all
    · rfl
  have hb : runBody s (e :: ws) stop = (s, false) := by
    unfold runBody
    obtain ⟨k, v⟩ := e
    simp only at hp ⊢
    rw [hp]
    split <;> rfl
  refine ⟨?_, ?_, ?_⟩
  · unfold withBlock; simp only; rw [e0, hb]
  · unfold withBlock; simp only; rw [e0, hb, (exitFile_disk _).1]
  · unfold deleteFile
    by_cases hx : s.fname = true <;> simp [hx]

/-- the situations of (d) are reached: a distributor without output path, and one after `delete_file`; after any history the file stays deleted -/
theorem deleted_stays_deleted {β : Type} (s : Rank β) (hd : s.disk = none) (ops : List (Op β)) : (runOps s ops).disk = none := by
  induction ops generalizing s with
  | nil => exact hd
  | cons o ops ih =>
    cases o with
    | block ws stop =>
      refine ih _ ?_
      have e0 : openFile s = s := by rw [openFile, if_neg]; simp [hd]
      unfold withBlock
      simp only
      rw [e0, (exitFile_disk _).1]
      have : ∀ (ws : List (Str × β)) (stop : Option Nat) (s : Rank β), s.disk = none → (runBody s ws stop).1.disk = none := by
        intro ws
        induction ws with
        | nil => intro _ s h; exact h
        | cons w ws ih =>
          intro stop s h
          unfold runBody
          split
          · exact h
          · split
            · rename_i s' hs'
              refine ih _ _ ?_
              unfold putKey at hs'
              rw [h] at hs'
              split at hs'
              · split at hs' <;> simp at hs'
              · simp at hs'
            · exact h
      exact this ws stop s hd
    | delete =>
      refine ih _ ?_
      unfold deleteFile
      split
      · rfl
      · exact hd

/-- a rank file written in two blocks, the second one interrupted after one of its two entries -/
example : (runOps (newRank none true) [.block [("a".toList, 1), ("b".toList, 2)] none, .block [("c".toList, 3), ("d".toList, 4)] (some 1)]).disk =
    some [("a".toList, 1), ("b".toList, 2), ("c".toList, 3)] := by decide +kernel

example : (runOps (newRank (none : Option (File Nat)) true) [.delete, .block [("a".toList, 1)] none]).disk = none := by decide +kernel

end DGA.RankFiles
