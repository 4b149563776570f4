import Verif.Tests.Util

/-
The proof fixtures of `/repo/tests-data-binary/fixtures/*.yaml`, transcribed.
-/
namespace FuelMerkle.Tests

-- Test 0 Leaves.yaml
#guard checkVerify "ce04537ec4b4b84cf02fa5c50c7810e2f6592e3b00de7423d7c3e7e7d8689a67" [
  "ce04537ec4b4b84cf02fa5c50c7810e2f6592e3b00de7423d7c3e7e7d8689a67"]
  0 0 false

-- Test 1 Leaf Index 0.yaml
#guard checkVerify "40561de71f9ab9b37d9bb1194f96e73d9b24170d13e8fbe62216a5eddea86412" [
  "40561de71f9ab9b37d9bb1194f96e73d9b24170d13e8fbe62216a5eddea86412"]
  0 1 true

-- Test 1 Leaf Invalid Proof Index.yaml
#guard checkVerify "bcd692b474ff28ad1b46171b907170afffe213d0a999d37172016371f89b1d50" [
  "bcd692b474ff28ad1b46171b907170afffe213d0a999d37172016371f89b1d50"]
  1 1 false

-- Test 1 Leaf Invalid Root.yaml
#guard checkVerify "f1234d75178d892a133a410355a5a990cf75d2f33eba25d575943d4df632f3a4" [
  "8d216d9f1b01ce2f51e3be1243e0da2591679f57bf2d062b9dbaae361558bb21"]
  0 1 false

-- Test 10 Leaves Index 4.yaml
#guard checkVerify "dfdf69ca3d8bbe42effc15304a76d95fc7e2dbf54cbc185a0f0157afb47c27e8" [
  "6fedf050a8f2b04e66b4b4bbe1a1bb083d1e1748c75d74cf2e31428542309ba3",
  "390af00738648704dbee5791e5a0dd83a0cf8e59901a519a2af4630ed9c2147b",
  "085c73fb213d3c8b32d104ca2236bc342eac5c204730cd2115f64e8cb754e66e",
  "01d58263228eac906f24a2b5f7aa53a59cd70b5895a262e8eb8151e3d571f694",
  "3462cc7c1d1bb60c889a6a43a71a4c23c7f4a9ab5c917a63170c182bc57b74e1"]
  4 10 true

-- Test 100 Leaves Index 10.yaml
#guard checkVerify "a9b6d97f45ed55e2242fa995c5d412a46a2e57a5a3f676aa9e60d973479c2446" [
  "d1b2f3f5c5a9e0b1d31e9c7060682c161cfd429abc6dc709588a0f7a8b989e6e",
  "51159906d4d62672664766ed8757915c7c925cfee778b8b3359df37a73ebeca7",
  "2b4f180744f30b41daad98a0d9f80fd8302de65ef33487e75b3eec6122c8e3f3",
  "59c518c8c13721afd212b11680680ed64270e79b503f5e7e342b9b201e7fa4f2",
  "4175b79f36911a6c629de2e70b03ff9cbfc51867ad71ef6462a8999c65783ef1",
  "8cdc18e4cb221ba071cd4804726794719e9202b8b95d8148e4492d3d76a4e9aa",
  "2434ae470b4d9f05943e65b63236ae7888281d06f9412068f602ca2662e73471",
  "1b7cc44323e578aa1380f7b5012ede68663732413625a0028c1c0d3e7652baa9"]
  10 100 true

-- Test 1024 Leaves Index 512.yaml
#guard checkVerify "1a57447fae64c1b78d02a05ac5255b2d1b350b8ce10c1180002288a9a49cf6fb" [
  "c00574a947cb3031d10fce0980c3711c70824c191e29c913f8da8b0d42da3c2e",
  "5f7a260b5b5dc663ef6a338ba673c71ef611e4a5e52dc41e9bd82dd9a9507c30",
  "51dbb7b62080c64fbc976425d0032933d1126df6f223420b332297c8ca133cee",
  "52c32361aabbcdb8a2d7fa6ede781716cfcb7e2708a7d1cae69b242154ba4d65",
  "ef41093d90dd8ece225c19f2073dfea48890f10087dcc6451c21d76a91feecfb",
  "d306531e7c69cb02b7b4008281007360d00af0f640d80d44ac9730a263582967",
  "200bf4ae7f3d12cfa374d72d8d73cf320b3f38bfb3dde85793a8d06f040da181",
  "c9b8de8d214f5cf0ca3aeae52def4456268f3c1f06e905ed741bc18b10844f8f",
  "a09d8a561023e032a8b560f1e85d300a3122b0cdf83b47798802d25d4db1083c",
  "782b6c333967ceb052cc479f83da4cd6d9e3b75c963cd4f4c4e8f1d7dbcb3436",
  "854f3ff8757852014af53efa1e8b88622281141ea5ad8f1bd21a133f467af2c4"]
  512 1024 true

-- Test 1024 Leaves Invalid Root.yaml
#guard checkVerify "f1234d75178d892a133a410355a5a990cf75d2f33eba25d575943d4df632f3a4" [
  "0fd57bb7146938576395aa785eef8970dc33f294fa2d9a77fc1598e9084be008",
  "bc6abd3c380c4d69085c2f879e784f096fcd0a9e921b359fecf87ef76ca4bc67",
  "c82561818abd7843b694824f21024c134158ce89445e7dc4a4aebebdb5a7dd5e",
  "f94219552c116bad634d8f9c98157ee414741ec053ea7f1ff3412df4a7b2899f",
  "617e973c2ac3dd9adfeb944ca1ee4d54053e2520c7d7d435872dd60f6c45c1bb",
  "3fe1e227f51971bff35c83338f48282c81f94edb7577cce7bb56661e14aab740",
  "cbabcf9e2f7ef7a85eb98e49380236c767ec32cfac1c878a03b22492f84916a6",
  "2689ef456cd69c7af07084ab16922331127544f038627bfa04f8d95effd1150c",
  "8007f304566161b05a29f4380dee1b5f4178b1e0a5dfadcf6613f6e15a0ec761",
  "6d8b4dd3156d16df1883acf6d6eb22f27635b44459b09a5a77a7bda6fb919d13",
  "c2a27c22ec6bfd35c83dcdf5379539c0865c23341ef8abba1248aa44fe36d23f"]
  512 1024 false

end FuelMerkle.Tests
