import Verif.Spec.Words

/-! Specification: formats that end in a repetition. -/

namespace Doodle

/-- The last thing the format does is to repeat `g`. -/
inductive EndsIn (m : Module) (g : Format) : Format → Prop
  | repeat_ : EndsIn m g (.repeat_ g)
  | repeat1 : EndsIn m g (.repeat1 g)
  | item {level args views it} : m.items[level]? = some it → EndsIn m g it.format → EndsIn m g (.itemVar level args views)
  | variant {l f} : EndsIn m g f → EndsIn m g (.variant l f)
  | hint {f} : EndsIn m g f → EndsIn m g (.hint f)
  | map {f e} : EndsIn m g f → EndsIn m g (.map f e)
  | let_ {x e f} : EndsIn m g f → EndsIn m g (.let_ x e f)
  | letView {x f} : EndsIn m g f → EndsIn m g (.letView x f)
  | liftedSome {f} : EndsIn m g f → EndsIn m g (.liftedSome f)
  | letFormat {f x h} : EndsIn m g h → EndsIn m g (.letFormat f x h)
  | monadSeq {f h} : EndsIn m g h → EndsIn m g (.monadSeq f h)
  /-- what is computed after it reads nothing -/
  | letCompute {f x e} : EndsIn m g f → EndsIn m g (.letFormat f x (.compute e))
  | tuple {fs f} : EndsIn m g f → EndsIn m g (.tuple (fs ++ [f]))
  | sequence {fs f} : EndsIn m g f → EndsIn m g (.sequence (fs ++ [f]))

end Doodle
