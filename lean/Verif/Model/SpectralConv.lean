import Verif.Model.SNGP
import Verif.Model.Networks

/-!
# Spectral normalisation of convolutions

`fortuna/model/utils/spectral_norm.py`: `SpectralNormalization` on a layer `nn.Conv` and `SpectralNormalizationConv2D`, with the
convolutions of `fortuna/model/{resnet,wideresnet}.py`. Biases are left out: they do not change distances (`use_bias=False` in all
these networks). Contract: `nn.Conv` is the cross-correlation of the zero padded image, `SAME` puts the smaller half of the padding
first (`lax.padtype_to_pads`).
-/

namespace Verif.SpectralConv
open Verif.SNGP

noncomputable section

/-- The kernel parameter of `nn.Conv`: rows, columns, input channels, output channels. -/
abbrev ConvKernel (kh kw C D : ℕ) : Type := Fin kh → Fin kw → Fin C → Fin D → ℝ

/-- The places of an image with channels. -/
abbrev Place (H W C : ℕ) : Type := Fin H × Fin W × Fin C

/-- The linear map of `nn.Conv(D, (kh, kw), strides=(sh, sw), padding=((top, _), (left, _)))` without bias, as a matrix: the input at
row `i`, column `j` meets the tap `a`, `b` of the kernel at the output `p`, `q` if `i + top = p sh + a` and `j + left = q sw + b`. -/
def convMatrix {kh kw C D : ℕ} (H W OH OW sh sw top left : ℕ) (w : ConvKernel kh kw C D) (x : Place H W C) (y : Place OH OW D) : ℝ :=
  ∑ a : Fin kh, ∑ b : Fin kw,
    if (x.1 : ℕ) + top = y.1 * sh + a ∧ (x.2.1 : ℕ) + left = y.2.1 * sw + b then w a b x.2.2 y.2.2 else 0

/-- Zeros before the first row with padding `SAME`: half of what `⌈n / s⌉` windows of size `k` need beyond the `n` rows. -/
def samePad (n k s : ℕ) : ℕ := ((Networks.same n s - 1) * s + k - n) / 2

/-- `kernel_apply` of `SpectralNormalizationConv2D`, spectral_norm.py L139-146, L188-190: the layer itself on one image, but always
with padding `SAME`. -/
def estimated {kh kw C D : ℕ} (H W sh sw : ℕ) (w : ConvKernel kh kw C D) :
    Place H W C → Place (Networks.same H sh) (Networks.same W sw) D → ℝ :=
  convMatrix H W (Networks.same H sh) (Networks.same W sw) sh sw (samePad H kh sh) (samePad W kw sw) w

/-- The kernel the convolution gets, spectral_norm.py L168-178: divided by a number. -/
def scaled {kh kw C D : ℕ} (bound sigma : ℝ) (w : ConvKernel kh kw C D) : ConvKernel kh kw C D :=
  fun a b c d => w a b c d / max (sigma / bound) 1

/-- The kernel as `SpectralNormalization` looks at it, spectral_norm.py L131-134: `w.reshape(-1, w.shape[-1])`. -/
def reshaped {kh kw C D : ℕ} (w : ConvKernel kh kw C D) (x : Fin kh × Fin kw × Fin C) (d : Fin D) : ℝ := w x.1 x.2.1 x.2.2 d

/-- `conv_init` of the ResNets, resnet.py L198-200: windows of 7 by 7, strides 2, padding 3 on every side. -/
def convInit {C D : ℕ} (H W : ℕ) (w : ConvKernel 7 7 C D) :
    Place H W C → Place (Networks.windowed H 7 2 3) (Networks.windowed W 7 2 3) D → ℝ :=
  convMatrix H W (Networks.windowed H 7 2 3) (Networks.windowed W 7 2 3) 2 2 3 3 w

end

end Verif.SpectralConv
