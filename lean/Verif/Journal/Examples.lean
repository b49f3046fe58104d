import Verif.Journal.Props
import Verif.Merge.Examples

/-! ## A concrete history -/
namespace Tycho.Journal
open Tycho.Merge Tycho.Table

def k1 : PKey := ⟨5, 1⟩
def k2 : PKey := ⟨7, 2⟩
def k3 : PKey := ⟨8, 3⟩

def exPay (k : PKey) : Bytes := [k.round, k.digest, 0]

/-- Two points are in the main database, the third is not. -/
def exMain (k : PKey) : Option Bytes := if k = k1 ∨ k = k2 then some (exPay k) else none

def it1 : Item := ⟨⟨100, 0⟩, true, [], [k1, k2, k1]⟩
def it2 : Item := ⟨⟨200, 1⟩, true, [], [k2, k3]⟩
def it3 : Item := ⟨⟨300, 2⟩, false, [], [k1]⟩
def it4 : Item := ⟨⟨400, 3⟩, true, [(k3, exPay k3)], [k3, k2]⟩

/-- Storing, merging, storing again when the main database has forgotten, cleaning twice. -/
def exOps : List Op :=
  [.store [it1, it2, it3] exMain, .store [it4] (fun _ => none),
   .compact k2 [encJ exJ 3 (some (exPay k2))], .clean 0 150, .clean 150 350]

def exDb (n : Nat) : Db := (run exJ ⟨[], []⟩ (exOps.take n)).getD ⟨[], []⟩

theorem it_ok (db : Db) (items : List Item) (main : PKey → Option Bytes) (hd : ∀ it ∈ items, ∀ p ∈ it.points, p.2 = exPay p.1)
    (hn : ∀ it ∈ items, (it.points.map (·.1)).Nodup) (hm : ∀ k q, main k = some q → q = exPay k)
    (hk : ((items.filter (·.store)).map (·.key)).Nodup) (hf : ∀ it ∈ items, it.store = true → get db.journal it.key = none)
    (hs : (db.journal.flatMap (·.2)).length + items.length < 2 ^ 32) : StoreOk exPay db items main := by
  refine ⟨hd, hn, hm, hk, hf, ?_⟩
  intro k
  have h1 : refs db k ≤ (db.journal.flatMap (·.2)).length := List.count_le_length
  have h2 : (items.filter (fun it => it.store && it.mentions k)).length ≤ items.length := List.length_filter_le _ _
  omega

example : RunOk exJ exPay ⟨[], []⟩ exOps := by
  have e1 : step exJ ⟨[], []⟩ (.store [it1, it2, it3] exMain) = some (exDb 1) := by decide +kernel
  have e2 : step exJ (exDb 1) (.store [it4] (fun _ => none)) = some (exDb 2) := by decide +kernel
  refine ⟨it_ok _ _ _ (by decide) (by decide) ?_ (by decide) (by decide) (by decide), ?_⟩
  · intro k q h
    unfold exMain at h
    split at h
    · exact (Option.some.inj h).symm
    · cases h
  intro db1 h1
  rw [e1] at h1
  obtain rfl := Option.some.inj h1
  refine ⟨it_ok _ _ _ (by decide) (by decide) (fun k q h => by cases h) (by decide) (by decide +kernel) (by decide +kernel), ?_⟩
  intro db2 h2
  rw [e2] at h2
  obtain rfl := Option.some.inj h2
  refine ⟨⟨[encJ exJ 2 (some (exPay k2)), encJ exJ 1 (some (exPay k2))], by decide +kernel, ?_⟩, ?_⟩
  · exact .step (a := []) (g := [encJ exJ 2 (some (exPay k2)), encJ exJ 1 (some (exPay k2))]) (b := []) (.refl _) (by simp) (by decide +kernel)
  intro db3 _
  exact ⟨trivial, fun db4 _ => ⟨trivial, fun db5 _ => trivial⟩⟩

/-- All three are kept while records refer to them; the third was unknown to the second record. -/
example : (getPoint exJ (exDb 3) k1, getPoint exJ (exDb 3) k2, getPoint exJ (exDb 3) k3) =
      (some (some (exPay k1)), some (some (exPay k2)), some (some (exPay k3))) ∧
    get (exDb 3).journal ⟨200, 1⟩ = some [(k2, true), (k3, false)] ∧ refs (exDb 3) k2 = 3 := by decide +kernel

/-- The first record is gone and with it the point only it refers to. -/
example : (getPoint exJ (exDb 4) k1, getPoint exJ (exDb 4) k2) = (some none, some (some (exPay k2))) ∧ refs (exDb 4) k2 = 2 := by
  decide +kernel

example : (getPoint exJ (exDb 5) k2, getPoint exJ (exDb 5) k3) = (some (some (exPay k2)), some (some (exPay k3))) ∧
    refs (exDb 5) k2 = 1 := by decide +kernel

/-- Finding: an event that carried the same point twice would count it twice and name it once, so that it would never be deleted. (Events
name points by key today.) -/
example : (batch [⟨⟨1, 1⟩, true, [(k1, exPay k1), (k1, exPay k1)], []⟩]).points = [(k1, (2, exPay k1))] ∧
    (batch [⟨⟨1, 1⟩, true, [(k1, exPay k1), (k1, exPay k1)], []⟩]).records = [(⟨1, 1⟩, [k1])] := by decide +kernel

end Tycho.Journal
