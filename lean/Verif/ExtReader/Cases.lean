import Verif.ExtReader.Lock
/-! What a reading pass of a running collator is. -/
namespace Tycho.ExtReader
variable {B : Type}

theorem Inv.allFullyRanges {ours : Nat → Bool} {timeout : Nat} {h : H B} (hi : Inv ours timeout h)
    (hl : ∀ x, h.st.ranges.getLast? = some x → x.fully = true) : ∀ q ∈ h.st.ranges, q.fully = true := by
  intro q hq
  rcases List.eq_nil_or_concat h.st.ranges with h1 | ⟨l, x, h1⟩
  · rw [h1] at hq; cases hq
  · rw [List.concat_eq_append] at h1
    have hx : h.st.ranges.getLast? = some x := by rw [h1]; simp
    rw [h1] at hq
    rcases List.mem_append.1 hq with h2 | h2
    · exact hi.pre q (by rw [h1, List.dropLast_concat]; exact h2)
    · rw [List.mem_singleton.1 h2]; exact hl x hx

/-- The state after reading the last range `r`. -/
def St.readLast (e : Env B) (s : St B) (l : List (Range B)) (r : Range B) (b : Bool) : St B :=
  { s with
    ranges := l ++ [settle s.last s.block (r.after (readRange e .toTheEnd s.procTo s.cache r))]
    cache := (readRange e .toTheEnd s.procTo s.cache r).cache
    allFully := b }

/-- The three cases: nothing is read, the last range is read, or a new one is created and read. -/
theorem readAll_cases {ours : Nat → Bool} {timeout : Nat} {h : H B} (hi : Inv ours timeout h) (e : Env B) :
    (∃ b, (readAll e .continue_ h.st).st = { h.st with allFully := b } ∧ (h.st.allFully = true ∨ ∀ q ∈ h.st.ranges, q.fully = true)) ∨
      (∃ l r b, h.st.ranges = l ++ [r] ∧ r.fully = false ∧ (readAll e .continue_ h.st).st = h.st.readLast e l r b ∧
        (b = true → (readRange e .toTheEnd h.st.procTo h.st.cache r).fully = true)) ∨
      (∃ b, lastSeqno h.st.ranges < h.st.block ∧
        (readAll e .continue_ h.st).st =
          St.readLast e { h.st with ranges := h.st.ranges ++ [nextRange e.ops h.st] } h.st.ranges (nextRange e.ops h.st) b ∧
        (b = true → (readRange e .toTheEnd h.st.procTo h.st.cache (nextRange e.ops h.st)).fully = true) ∧
        ∀ q ∈ h.st.ranges, q.fully = true) := by
  generalize hrd : readAll e .continue_ h.st = r
  unfold readAll at hrd
  by_cases ha : h.st.allFully = true
  · rw [if_pos ha] at hrd
    left; exact ⟨h.st.allFully, by rw [← hrd], Or.inl ha⟩
  · rw [if_neg ha] at hrd
    by_cases hopen : ∃ x, h.st.ranges.getLast? = some x ∧ x.fully = false
    · obtain ⟨x, hx, hxf⟩ := hopen
      obtain ⟨l, hl⟩ := List.getLast?_eq_some_iff.1 hx
      have hxm := List.mem_of_getLast? hx
      have hpre : ∀ q ∈ l, q.fully = true := fun q hq => hi.pre q (by rw [hl, List.dropLast_concat]; exact hq)
      have hseq := hi.lastF x hx hxf
      obtain ⟨br, hbr⟩ := pass_one e h.st.procTo h.st.last h.st.off h.st.block x h.st.cache hxf hseq (hi.skip x hxm).1
      have hpass := pass_pre e .continue_ h.st.procTo h.st.last h.st.off h.st.block [x] h.st.cache true l hpre
      rw [hbr] at hpass
      simp only at hpass
      have hls : lastSeqno h.st.ranges = h.st.block := by simp [lastSeqno, hx, hseq]
      right; left
      have hr : ∃ b, r.st = h.st.readLast e l x b ∧ (b = true → (readRange e .toTheEnd h.st.procTo h.st.cache x).fully = true) := by
        rw [← hrd]
        simp only [hls]
        rw [hl, hpass]
        simp only
        split
        · exact ⟨h.st.allFully, rfl, fun h1 => absurd h1 ha⟩
        · rename_i hb
          rw [if_neg (by omega)]
          refine ⟨true, rfl, fun _ => ?_⟩
          simp only [Bool.or_eq_true, Bool.not_eq_true', not_or, Bool.not_eq_false] at hb
          exact hb.2
      obtain ⟨b, hr, hb⟩ := hr
      exact ⟨l, x, b, hl, hxf, hr, hb⟩
    · have hall : ∀ q ∈ h.st.ranges, q.fully = true := hi.allFullyRanges (by
        intro x hx
        cases hf : x.fully with
        | true => rfl
        | false => exact absurd ⟨x, hx, hf⟩ hopen)
      have hpass := pass_pre e .continue_ h.st.procTo h.st.last h.st.off h.st.block [] h.st.cache true h.st.ranges hall
      simp only [List.append_nil, pass] at hpass
      by_cases hc : lastSeqno h.st.ranges < h.st.block ∧ h.st.ranges.length < e.limit ∧ True ∧ (!e.newParams) = true
      · obtain ⟨br, hbr⟩ := pass_one e h.st.procTo h.st.last h.st.off h.st.block (nextRange e.ops h.st) h.st.cache rfl rfl (Nat.le_refl _)
        right; right
        have hr : ∃ b, r.st = St.readLast e { h.st with ranges := h.st.ranges ++ [nextRange e.ops h.st] } h.st.ranges (nextRange e.ops h.st) b ∧
            (b = true → (readRange e .toTheEnd h.st.procTo h.st.cache (nextRange e.ops h.st)).fully = true) := by
          rw [← hrd]; simp only [hpass]
          rw [if_neg (by simp), if_pos hc]
          change ∃ b, (⟨{ h.st with ranges := h.st.ranges ++ (pass e .continue_ h.st.procTo h.st.last h.st.off h.st.block [nextRange e.ops h.st] h.st.cache true).ranges, cache := (pass e .continue_ h.st.procTo h.st.last h.st.off h.st.block [nextRange e.ops h.st] h.st.cache true).cache, allFully := (!(pass e .continue_ h.st.procTo h.st.last h.st.off h.st.block [nextRange e.ops h.st] h.st.cache true).broke && (pass e .continue_ h.st.procTo h.st.last h.st.off h.st.block [nextRange e.ops h.st] h.st.cache true).allFully) }, _, _⟩ : Res B).st = _ ∧ _
          rw [hbr]
          refine ⟨_, rfl, fun h1 => ?_⟩
          simp only [Bool.and_eq_true] at h1
          exact h1.2
        obtain ⟨b, hr, hb⟩ := hr
        exact ⟨b, hc.1, hr, hb, hall⟩
      · left
        refine ⟨true, ?_, Or.inr hall⟩
        rw [← hrd]; simp only [hpass]
        rw [if_neg (by simp), if_neg hc]

end Tycho.ExtReader
