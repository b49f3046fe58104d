import Verif.InputBuffer.Props
/-!
Histories that meet the hypotheses of the theorems, and what happens when messages are too large.
-/
namespace Tycho.InputBuffer

/-- Ten bytes of buffer, six bytes of a batch. -/
def hist : List Op := [.push ⟨9, 1⟩, .config 10 6, .push ⟨0, 3⟩, .push ⟨1, 2⟩, .push ⟨2, 4⟩]

theorem fits_of_all (ops : List Op) (h : ∀ n, ∀ m, ops[n]? = some (.push m) → (run (ops.take n)).buf = 0 ∨ (run (ops.take n)).batch = 0 ∨ m.size ≤ (run (ops.take n)).buf) :
    Fits ops := by
  intro a m b e
  have h1 := h a.length m (by rw [e]; simp)
  rwa [e, List.take_left] at h1

/-- A test of `Fits`. -/
def fitsB (ops : List Op) : Bool := (List.range ops.length).all fun n => match ops[n]? with
  | some (.push m) => decide ((run (ops.take n)).buf = 0 ∨ (run (ops.take n)).batch = 0 ∨ m.size ≤ (run (ops.take n)).buf)
  | _ => true

theorem fits_of_b (ops : List Op) (h : fitsB ops = true) : Fits ops := by
  apply fits_of_all
  intro n m hm
  have hn : n < ops.length := by
    by_contra hne
    rw [List.getElem?_eq_none (by omega)] at hm
    simp at hm
  unfold fitsB at h
  rw [List.all_eq_true] at h
  have := h n (List.mem_range.2 hn)
  rw [hm] at this
  simpa using this

example : Fits (hist ++ [.fetch true, .push ⟨3, 5⟩, .fetch true, .fetch false]) := fits_of_b _ (by decide +kernel)
example : NonZeroConf hist := by
  intro b c h
  simp [hist] at h
  omega
/-- The message before the first configuration is ignored; the first two fit a batch. -/
example : fetched hist true = [⟨0, 3⟩, ⟨1, 2⟩] := by decide +kernel
example : accepted hist = [⟨0, 3⟩, ⟨1, 2⟩, ⟨2, 4⟩] := by decide +kernel
/-- A failed round repeats, a good one goes on. -/
example : fetched (hist ++ [.fetch true]) false = [⟨0, 3⟩, ⟨1, 2⟩] := by decide +kernel
example : fetched (hist ++ [.fetch true]) true = [⟨2, 4⟩] := by decide +kernel
/-- The eviction of a part of a batch on its way: what is left is confirmed, nothing else. -/
example : (run (hist ++ [.fetch true, .push ⟨3, 3⟩])).data = [⟨1, 2⟩, ⟨2, 4⟩, ⟨3, 3⟩] := by decide +kernel
example : fetched (hist ++ [.fetch true, .push ⟨3, 3⟩]) true = [⟨2, 4⟩] := by decide +kernel
example : fetched (hist ++ [.fetch true, .push ⟨3, 3⟩]) false = [⟨1, 2⟩, ⟨2, 4⟩] := by decide +kernel
example : drained (hist ++ [.fetch true, .push ⟨3, 3⟩]) 4 = [⟨2, 4⟩, ⟨3, 3⟩] := by decide +kernel

/-- Finding: a message larger than the buffer is not refused, it takes the node down (lines 109-115). -/
theorem too_large_panics : (run [.config 10 6, .push ⟨0, 11⟩]).bad = true := by decide +kernel

/-- Finding: a message larger than a batch but not than the buffer blocks all after it: no fetch returns anything as long as
it is not evicted, however often it is repeated. -/
theorem large_blocks (ops : List Op) (hf : Fits ops) (m : Msg) (l : List Msg) (hd : (run ops).data = m :: l) (ho : (run ops).offset = 0)
    (hm : m.size > (run ops).batch) (fs : List Bool) (f : Bool) :
    (run (ops ++ fs.map .fetch)).data = m :: l ∧ fetched (ops ++ fs.map .fetch) f = [] := by
  have key : ∀ fs : List Bool, Fits (ops ++ fs.map .fetch) ∧ (run (ops ++ fs.map .fetch)).data = m :: l ∧ (run (ops ++ fs.map .fetch)).offset = 0 ∧
      (run (ops ++ fs.map .fetch)).batch = (run ops).batch := by
    intro fs
    induction fs using List.reverseRecOn with
    | nil => simpa using ⟨hf, hd, ho⟩
    | append_singleton fs g ih =>
      obtain ⟨h0, h1, h2, h3⟩ := ih
      rw [List.map_append, ← List.append_assoc]
      refine ⟨fits_fetch h0 g, ?_⟩
      simp only [List.map_cons, List.map_nil]
      rw [run_snoc]
      simp only [step, fetch_spec _ (inv_run _ h0) g, h1, h2, h3, List.drop_zero, ite_self]
      simp only [takeFit, Nat.zero_add]
      rw [if_neg (by omega)]
      simp
  obtain ⟨h0, h1, h2, h3⟩ := key fs
  refine ⟨h1, ?_⟩
  unfold fetched
  rw [fetch_spec _ (inv_run _ h0) f]
  simp only [h1, h2, h3, List.drop_zero, ite_self, takeFit, Nat.zero_add]
  rw [if_neg (by omega)]

/-- Such a state is reached. -/
example : (run [.config 10 6, .push ⟨0, 7⟩, .push ⟨1, 1⟩]).data = [⟨0, 7⟩, ⟨1, 1⟩] ∧ (run [.config 10 6, .push ⟨0, 7⟩, .push ⟨1, 1⟩]).offset = 0 := by
  decide +kernel

end Tycho.InputBuffer
