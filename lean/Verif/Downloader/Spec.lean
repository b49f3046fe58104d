import Verif.Downloader.Model

/-! Words for the properties of a download. -/
namespace Tycho.Downloader
open Tycho.Table

/-- Peers whose query or whose answer is being dealt with. -/
def St.busy (s : St) : List Nat := s.downloading ++ (s.slot.toList ++ s.queue)

/-- `p` is still to give a final answer. -/
def St.left (s : St) (p : Nat) : Prop := (get s.peers p).isSome

/-- `e` is an answer of `p` by which it has no such point. -/
def Unavailable (c : Cfg) (p : Nat) (e : Ev) : Prop :=
  e = .answer p .definedNone ∨ e = .answer p .tlError ∨ e = .parsed p .badPoint ∨ e = .parsed p .tlError ∨
  (∃ id ok, id ≠ c.want ∧ e = .parsed p (.point id ok)) ∨ ∃ id, id ≠ c.want ∧ e = .parsed p (.illFormed id)

/-- The ticks in a history. -/
def ticks (h : List Ev) : Nat := h.count .tick

/-- The validators of the next round, without repetitions, at least three of them. -/
def Cfg.WF (c : Cfg) : Prop := (c.signers.map (·.1)).Nodup ∧ 0 < c.count.oneF

/-- Whether `p` is known to be resolved after a history: what was heard of it last, or its state at the
start. -/
def Cfg.resolved (c : Cfg) (h : List Ev) (p : Nat) : Bool :=
  h.foldl (fun b e => match e with | .peer q r => if q = p then r else b | _ => b)
    (if p = c.author then c.authorState.1 else ((get c.signers p).map (·.1)).getD false)

/-- `e` is a final answer of `p`: it does not have the point, or it is the point. -/
def Final (c : Cfg) (p : Nat) (e : Ev) : Prop := Unavailable c p e ∨ ∃ r, e = .parsed p r

end Tycho.Downloader
