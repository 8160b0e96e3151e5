import Verif.Proofs.XoPoly

/-! # Powers of the transition of the generator, as polynomials: tables checked by the kernel -/

namespace Plc.Xo

/-- x to the powers 1, 2, 4, ... modulo the characteristic polynomial. -/
def table : List Nat := [
  0x2,
  0x4,
  0x10,
  0x100,
  0x10000,
  0x100000000,
  0x10000000000000000,
  0x100000000000000000000000000000000,
  0x3c03c3f3ecb1904b4edcf26259f850280002bcefd1a5e9d116f2bb0f0f001,
  0xbe7976372e9304356dd49b656055c9da81f675e7a4ef7d84c7327d130e34b489,
  0x65507439cf43f0e28456faeb6230d9841be1d76854ddda93060106bbbe4ff028,
  0x51edef31819e01ff3c8ca36ec9a74fa715fe822628b16f04876c2301125a85c0,
  0xf41cce3698fad39aa6eb691cbf9ce10d638d47ec5bcf595d7f4e8da7e228b85,
  0xda66e09e52b341d132104b94fe2534d3b1df898a4a6f1548669da12373880674,
  0x3cec2c375bef249c023ecbee3f717fce3886af219b8852484f20eb915e780231,
  0x1a9dcf944ae47603a69393ac0d837e54c3ce2f061f077568449b3ae793888c8c,
  0xd87f8ce230817a21ef43beaa06f02fb892ae7ca370c0bf6b7e89ac5ca2fbf2c7,
  0xbd53027696368bbbf0c168649cdba61f54adade3697d477f6c4adbe18e29df8a,
  0xf78a97c0d882cd371ea49b5067452594f2c602feb5ed002b1a673fecf40e36b8,
  0x1639a36e0968e3c5590923d02ec52531770323eab8d437bdef4606da56224c47,
  0x8b3919a9d298a4152f679f694a74c76a7cde241817a3ce0f31d9d05c5d95f3cd,
  0x624eb7b63c322e71d9b36372fd70ec83eace6d3840b79fef6b6622ae9590047a,
  0x2bac5517c9469796cebbfd2ef4e9aff4eb2c7e29d3c33d2e1b91fd9ba98d9e23,
  0xfb678bd3e5dac186657a6b736317866bba0ffb6562a3a28a01f356e6083fe109,
  0xf5c010059e83bc3ff3469dbb4fe25d26e46916a1426b676dc5461100f197a7e8,
  0xe677849e207f6afd5de3e273dc7b84dc3eec4eb6495ce5aa22dc028cb8c259dc,
  0xd19a1bdceb7522cdf2332a778d9c8dc114e10c3b7c36788832d418900fd3b0f,
  0xf38f7e750d5f4f2a98273f4d18ad073e8b3ed7c37e947e38e2d0c9c10e8d7157,
  0xafa9e3fe5fea15c36d48dd206d56754d34f30137eadb90b9e7109518f3510d70,
  0x1ca234ff511bcb05c76a456d998ddc4cd7c26ebd51ecf6c48ee774f507ec9f39,
  0x3e667662caa54d16e0e9fa345826626d352f8b5d2137de834905d8261158a7bc,
  0xa43d37468704d53682b9aa358fe2ed58e1185a166bb38173272a32be4bac7912,
  0xe055d3520fdb9d7214fafc0fbdbc2087d8d0632bd08e6ac58120d583c112f69,
  0xa1b7ebf581a90f09ffed2ffbcf857b425d33a22177777716d9eb3e225a9ebb7d,
  0xafe97309a7881b0a59f09ab33f1c8f40c2e65cfa3a44f3b3a433a5cff8501f4,
  0xc1cdf918a717c89794295f82142a68bd53a34398808ef457635e9c6882ce5c6a,
  0xac7fe0806aecd6c863d3f9df102dfa7e306c4d371040af1e1a2c804af78e2ed4,
  0x702cf168260fa29e976589eefbb1c7f57823a1cd9453899b7743a154e17a5e9b,
  0xc4671ec91b902bae03803bdb9ea7d7e868ef5242f2d9c5b22edfce1b0667bf3f,
  0x755b16e231d1e7c9af03bea7ea7109fd0af3e6140fcff1854d2c07a0b0f7980f,
  0x51fc9b8eb1974e73eece73d85df1836113a31dc36460a3b0d24b31ab16542ea0,
  0xfb43cf1f4658ae1bde49d57f23fdecb5a374bf9822d660aaec9c79ebd62a4a91,
  0x9b48db8907d00f973aa3d49368a9c56248b8b0570f008a917602414a37bf1c08,
  0x8ec1a9dd27957370a6994477ec2d6d859e11e129fcced20ef7569be74f972355,
  0xba8b1a7be4521854f6c987b8eb4f76db82f1f8d3ebd9baffc223943200d6e8a0,
  0xa8f7de3ed772d2d2bad2e3487a438d37f6faaff592dc08c7e226bff99e7f9d4f,
  0x3c63f6f95954e65e181d6c749bfc7e7bb006241469247fbd6322f95d362137f1,
  0x81f450881b8436920df6566ff12f17f469811136f33b48faaa878816402dab5f,
  0x5f728be2c97e9066474579292f705634f825539dee5e4763f11fb4faea62c7f1,
  0x5ff98760441a364cec104b9942b386be36d6c9bc4bcb56f5f18ac1f5eac5120e,
  0xb01e1ff4eb0b05f6d1c440c801f3cddf168b84ac131ea85612b825906ddc86af,
  0x140bd5e4e00ffdaaf1ab1bce1577ad4eb5bb35fe03c3158a5696a9ed59ffcbe3,
  0x5177664e86d5e31b49c2df736ebe9c688eadd052a304405f61507225f9f0e0fa,
  0xa93a7aadeced9cd75b8d5f58ce3357a7ca120d886e8fdf3387aac36cc0c1abae,
  0xd5372758d87157efa6f4a2ea423cc2f62b95939579346af1d4eb47064a9ac499,
  0x7e0b8abe53e950f8b86994c9cb3059a556df3905d6712eed549bf83ef12aebc3,
  0x888f2c33969763bc405c1164a3a6d4927cc40c1479b95df0b32b0dbe851dd9d,
  0xfecb2b39fb96f07831acd0e23e87d9d37e5cbd2047cefb5e920a67ed72aa1155,
  0xf643cc9255f0674182f88d9e6b9b17c097a6c4a0d2cdf9ac9841d4c5510c4700,
  0xe8e07ed05188af0f65ba2fdf5fe59ed155756dedb136961f30ac848541c0b04f,
  0x679b88958f3bbdcb04ad0ecd62544db26d885bb5321527a7adcede280bb92b99,
  0xd10d621b74213644bbf25302a56d6131aaee46b89b10620184db0e338a94ce16,
  0x6ff477672ddf72b15083dee093b632b731fbe8b0a2035587ed3c94e03147ca9b,
  0xa9559a2368719526bae4d9a25a3928b922a36cdc0fda409f936ece877e64cc97,
  0x12e4a2fbfc19bff934faff184785c20ab60d6c5b8c78f106b13c16e8096f0754,
  0x1e22c55ed04628f471c9cddcc21b4d96e9cd737204214bdf69135f8ae4f3becb,
  0xb6e16802c1e5a473d3c646ca742cfd35cdc2f8abc30facd843f19411729e47a3,
  0x71583507471df592e9121d42d889f1e6cf7a45ddbd380c46e1040fefa7016612,
  0x790035ed5d8a52063481941c63b9723bef00865ccdc62b407dc73de451f84f31,
  0xc5245c9108c8303b1b2e1e5f58ca50e9e2b26892066519e7b7fde9c10dde1033,
  0x72636702af55f1ae80dd958fc2ce8b38d0229895c9855019f7e31117fca1fde3,
  0xaf24371b5a1a053d59970509d58afcb4369b623ac732f278f4fdf1938a08c423,
  0xc2a214d5ccfdc9cc98aea009de1e6b3b4f2a8443cc705e1be38bd8d6060eecb2,
  0x45c97103176ad4cb35a81ddfd74498bfe60945b17507ff1779e326bea03051e,
  0x8c79d3fd0cd87d25e54b1f90f1804a5b967c5d39bff598c3f99f64a8eef50acc,
  0x44a26649c72eaf799b135f39cbd2444200dc697c0ce8f5bf5bf7c3946011203d,
  0x621f84d4c5b7d5b26f0bd8889bc16b6505063f82926b10501fe0ce6e4a5fbfa9,
  0xafb60de4ef76f2d8a2ce3240999f03958cac609dd3f769ea0bd0d4953231dc02,
  0x6d9d47d177fda8e15d5a93bb678d1ff3b46e28d0dd20be9ce41a05c6d5ad6443,
  0x69b492ad849876a0f671f175f29bd401c05cb5489fabd6ba3750097bc18818df,
  0x2c09ebb60b81941a5d23c239088b488e0355dab5aaada3566c1a4d1bee4cfb25,
  0x3d8c3676399ece2d1c4df4e6dc4daa6ca77d08c97aa93a7b85bc661b5fe4c77f,
  0xd6fc185137af1d8b97595ce59431e3aab12fec5cc69849360d50032e0877ba29,
  0x86b251394485c94bd5cace972fee73fa754228fc6853084549aa26e5d4bf7857,
  0xb0baae7f98b528c0bff33c810d4f1e62dfd675636a53a2ad8d480422727ca5ce,
  0x3fa865ff30ea93f76a4d1fd3bf02d5587d85e7cb6751bcbbb0908faa94bfc92c,
  0x3c3c2884d98788bc5aa4dacdc52add36a789c54654ca7c28d0d6be52a69e58c9,
  0x15e0fed2f7bccfef4c9ca45e4bc2a3c341288120b4579cf85f3f3b8fef0ed6b3,
  0xa949942afc5a2f2c9c885317a50787eb53b8a4a16a46d7c3d262b21891db8d4e,
  0xfe740ffad9e176874ea029ea5dbf8c1dc0a2019a1a152787718aec6a573de99d,
  0x77a27a67f88f49e1228277008b5fb66935e2e29698d7eb0d07f145f47c78ac8e,
  0x1029f062e580da266648b4ef24a588567c62ece20d8be0116627da855e5050fb,
  0xa0d23922f4dc99166f17a03a6bc6a87734092a8e98b795bea9ffe6995923a7b1,
  0x336f2f9401f8204135e67f142da25aca0ee2caf1df36f661062e89b53f6cea07,
  0xa3a29886c86c3cded617e92e93ea456793b549a81fd07be4bf67135726c63517,
  0xfe0143fd314c9e7ec51d91ed4856b46ef9d3a86c856b8a2621ff06188c9cc699,
  0x31eebb6c82a9615fb27c05962ea56a13cdb45d7def42c317148c356c3114b7a9,
  0xc78709f4e0724160d863413b92cae906d8aed72f2c4c8d065d4da92b5d749ee7,
  0x43b4a1c47d75f54af59e618faaebae8ae2ece3b6969fe76ac72a478e776aa7e8,
  0x57f74d5c8e13eabef018da68303dd3aab24feee905fd903285043fb7b5ec46d9,
  0xbf7e526feafe9fab6bef1c2cbcff5536a797dd2a234c782b1fe7835e4087fe62,
  0x944120083af78d6175b4d7f6cc9f25e15aa27a47492448382b8e518ff5d4cf7b,
  0xa1d8b4c28aebb8511965ee22fd231ead1bf5aad8660b3dff3d6f902c3475cabe,
  0x9c9e175a184afb5365e7e4d9e2832455c97a1beedb0cd1818f55a96afe8c60d6,
  0xb9d862913d6f7e400a65eef99174032874b6da57ea2bc33a652cb4ccd4073f0f,
  0x82998b76e46a33d6d4b46d9444c365a710698e01c2ae9c871045804fface6bf3,
  0x8da69514b40b00e7f1a9cb543a0bfa1002416381d70e6c430a2c871d4e66d5cd,
  0x27b45c44ee4a622983d4e917f16be77b4dc5ff02cd80ea1db79a9592b42dcf38,
  0x3762beab010e60b1219d46c745e04de7ae1e5f3ff8b477204d5d5691e346a117,
  0x1cbf90cd7272db76634ad6497e9d5d70b46fba890f1ca8f6a26c20feb2ae9f7d,
  0x5f46daf7953c1bb34fb63d3b5eb990979b34b9c8c6c9c0e0b0c0f65d5e452c0d,
  0x127923940e883a8188dc353d2d4788aa08f672eaf81f8987fafc3b0810db88e,
  0x19809df824096ba19a5475c8d2fb2d20e903694ada9d6795ff09f37df22eab9a,
  0x7ea9fc3051e87b78e6a590ca622a3320861797e8573bfcd7656c70a5f3f5c710,
  0x644a875145d5d51f84d72b234e8a54795ad3eec2014d42b66aaa9929398cd48a,
  0x6d2cc53f91af5f85203951cfd23e94cb00659f02b37a017c6c738865ed73b377,
  0xc0864662b10083e8bef3d95e4e54413a8bc10737770d137ef7af674289519c6c,
  0xcecda49faf04bbfbeb185b3b61ef25071d6286a155723d48f5238b0ff86d1867,
  0x2732a7244a31e5dda02ccbd8d031b5d599c6cd156b9744df644b243f9d056a3a,
  0x216f9077c64f36f6df8f6390d609a5d475e9335039224b3b25523b168236da8c,
  0x56ab0ca212a8d012ef5b7611f90b7c08565c9f7a11c40482c291983aa3a3a178,
  0x45c2ad3649667c04c7abdfbc652abf3ed73fe72ba2d98892b400d4604c1d59db,
  0x91c1510f9b6f2ef8058b3d55bfaa4aad543fa081564a326f9bb885cd5aa00a8c,
  0x9d6ef09217bf59b753c8dfba6c9aacae09cf7d85a86c1a907a3e03325fb2eeb7,
  0xa1a3090ef816c214d8289b4ae487d7e10bbfd59ed2151f31e98651fa6fb0337b,
  0xaa72e405fb26c80a56e93ecb5b3619951b18a0517cea386aaeb33557c76543fe,
  0xfd4d894c8f82680a8397aeedc528c3f057c811875c62528446555cf90fc3d1cb,
  0xd46cb8565abad18ea50845f0f43019854dd8801baa92fddaeacbd852b93bd815,
  0x39abdc4529b1661ca9582618e03fc9aad5a61266f0c9392c180ec6d33cfd0aba,
  0xa23e49ee6f1a7a8da5a28cccb37dba5bccfc8ca2814de79e8cfe9bd9ab71d992,
  0xd4e9921bccb8090bca8a45310219dc675e38f4fbb6fcda721b2a94a672a48c05,
  0xee658f69deb5df26fa0587a90f71743834cd4cc8228d74acf30974a2b1dbbb71,
  0xd7aaaf48aa459c582573e3218d8bb7dad2c0d8e0c8a2fb9bb42bd4670583b289,
  0x8fd437c01abeab24d82be75b83dbc2d0cc7efdcfed1ac303f6a5ab84efb67883,
  0x7d16742eceb4d5abb0b87a330b854c8aedc8b8d02a22310bc85ee5171484f5a4,
  0x6533981804b420ea13c97c0891cab48a4157dc48443e35654298ba0e862a6007,
  0xa1ee335d14807ae0613b2ed9f0acc107edc28c89cb341660ee5f5a6f02dfe47c,
  0x799d469b2145a8a30531513e8e0ac7064b26f71c1fb1b47b5ec3050c6b43565a,
  0x6007bb31ec5a2964b6acd7be4906b73d7123f2290a1f413b34f0a6799020283e,
  0xec907801890a47ab7e42d6f54484049954fe6df4cff0db73aa0711c54877febd,
  0x964e9d188c16508ed8c4367e574ab1603ec263f5c999196e03833e601d82a673,
  0x24d9ba21277dd8d815ac212f3b861b5af524fd4408357a5cd64f3f2aaf8f2171,
  0xf89354cfe1e6b5fb17a7af3e97d8c402bbe0e2c0c44b2e1cfe9b778d7d1ca2de,
  0xb89526857566cd94aad8c318bc459ccef4873d277cd1ab72695cf225704e767d,
  0xb81875d0f4f6f253962c90a866ea6719c51212c8b1aa27873dcd32f39276a95f,
  0x11495a1b200d4eb8a5a140826c351d071c554e97b2277f47b43cf8e4eaf8e068,
  0x3e53bfa0db28e11005af69bf1fb82891ff957b6f55288048417b73b324735d32,
  0x48f6214560239b46d3da65e82bdd39e2fdb3f4ea18f0a56bb6c7a6004612889c,
  0xde364ef64a484f59ec60b640d685171dd9dc0929a54fea75f1267ba0ec3c645e,
  0x2b29c7d3ef18d3b3cb6286958a9af01ad7f1c5ade3de404a2761cbab38e0f580,
  0x6a3b6a431109e3d199455c744595c01f547db3576511edc25a5ce93f67a3cdd6,
  0xd2333b0c03f620ed1d0a619aa607480d9d73da9f40f374afd80c1c832a739e,
  0x3f03458e0273439b2a47bd3fc39081daef46e42368baead311428ceb13f2cc2c,
  0xade2626c292a2a9f0fdcfd4ab0f5afee9f8160e9d012439847558e815c898e8b,
  0xc35abe5cebab1ba4d84fc5f798c1a55ef8be2d3d6ce206b0e848ff06d72a9252,
  0x7c25b2c3282fb73060ef7116e6f3c1e0ee1d857a675ca074b0dd0edb19af078c,
  0x6298f48fa13cc12f57059d3707ee283a6b590805d407e77eb51a19064886308a,
  0xab5d0760d1fe77dc1780be415c86b5d5cf69cee6182fa1644f1102acb29c3230,
  0x10000e5f7bf7a58bd81275131f4f91f8a57d650a8007d505c639b7c24b26ef11,
  0x9d89163f581d1e0743eedc2ede6d478f1d3279f36823213295b23eaa04478ed,
  0xf567382197055bf04823b45b89dc689c69e6e6e431a2d40bc04b4f9c5d26c200,
  0xda01b157a2b021e9be61763d20685d37f32c270b20ce5f3809f16c9da06c8a66,
  0x9d7c0c2cf565896ca1fbf40a9936c15daccd356978aafc8ec6d70a8c6aec7778,
  0x592056e6bbf026f6fbdcc8828b2c1889327a229ce124857890c526d9d0b6773f,
  0x746ea463d01f96a40fbd392d992b9686e63e390ab5f8a1a5a14aaaccc2890705,
  0x4d1dc582c66946beb4bb676b08602d23441424d88baa1859d8cd74de1850f135,
  0x621c1b93e8fa11834b145a211d1fdfdf994b90f8d7149b3d2adbc6211da0644c,
  0xfaf3fe8684e4e6117bd5128045929790340889c14a3c57362fd0c3d604d53cdf,
  0x4a55ccb047f7ed1f6d8bf975dcc010745f15699d4848bfcc01e53e1bc659d517,
  0x929a14fdb0efb0b5efcb70ac050d5190629372507db35e6171ce8d56b9692c38,
  0xcf9e9a1026630265de5841dcae8e37bbe890fcbab799d18627d627035f8c74a5,
  0xbfbcf2e3dee7abfa9d53ec478a607c58fd3a5a8b24565256b405010a26f11c18,
  0x20d9430de74248c9bc2ad4d4d5a4ecb88f148500f69fe8f8b072a316838de4ee,
  0x6db40995b68e4c6863eb42892a0f4361a0851e63a9ec247c732bd9e5c94b916a,
  0x8543e7ab4077f4329f4387fbb3eebe2b38ada6d1a5427bae87d88258b7992ce,
  0x2281c456455c4a6d7f05b87543072eb80a1db90231a55a326735bb34738c34f7,
  0x2432aaa71d816e63259022fe05f4023e0b4df9e68366344a053ff7e4e8581163,
  0x65e8192b0d9e2abdcdf361320fa2c0b81690de70406c5b2fc89e47923390d01,
  0x6f46880c9915650efac68c11fe1e596ce3da1faabf2f681d54ae81c77079738d,
  0x8de6f3aa90cec54870f4ef60d5dd38903ac1fea4d54d07109350f3f8897dc5cc,
  0xf930e902851defa3cb5512bde4e7bf59c22f28a3d0afc80be7b23f10622b3386,
  0xb05640b794289f317a55e55bbd72fb817bf0fe15bdc9337fcaefa30f55ce5c0f,
  0xfa65f166fbb0db461d6cf653e616a08b8b27bb7572d287130121e7a60194d6a,
  0x7a974830be953c4a1c46fb7ea04848573444a78d93dffc9a646fe4bfa600d564,
  0x7691957a691df817b8f35b514eb14767be489e3f8ac415340ffabb6c5ce8d644,
  0x57f44892a2ad86eaa9c11c5aaf2cab9783f997e75e88067f5b16024d0563a65a,
  0x6062e8c7dc309cb2947c9b3af027e7917fe5c232f064f464a6c7eee290c62375,
  0x2629bab11c98b6ae4c5bac1c57856ed752a29a371c84710f038e07e40a2812e1,
  0xaaa38210dde97c64c3f6fbf07e4643273e3494a05f161ecd637242c48b99b633,
  0xd6e3b368fb2a311081d165297d239d2ac188ca2c76798705c4d01c7eb078fd29,
  0x6309de7dbb3bf59d5a70368075759194acfe2b03b09803d07f90ffb775c02726,
  0xdb9d6b2d354321b478a3e873f00291ed902b0ee66222acc7f0f03027dfdc22d5,
  0x39109bb02acbe63577710069854ee241c5004e441c522fb376e15d3efefdcbbf,
  0xba70f1bd97fc40b0e9edb73cb3e9fb7ca4b0488571edcb9d85d1837e6f0cd3fe,
  0x3727c275522644a7aff90eda09ea8b4c0b893c16e4a7f3b3ac54fa504c60e306,
  0x574e4d0093e3a2e4d4483ff9a9ac5a23c9a202b2322bb7f6302eda308643ab47,
  0xec6aa16a8ffc76fa236417db3b031424abfffe7ac9ea1612261882d92ec8429f,
  0x88e5349d50f3ddef285943d7fb75d765f7c39d8fc76906a352f6a62700009087,
  0x21588c86cc534c29f055378c576c5c9afc0c646fb82afceb3facc68ed0053ac4,
  0x443c1363fd5c7d43776751b126655d133d38ff4fc965c1fafe596054913ed407,
  0x5243e79672334390163160efcad9c0466217b3306e3e95571a672a03c71adc2e,
  0x2dcec71c419baa62dabe97e1dd9a59c15348b64c107873b658ce1e7d6ea9281f,
  0xe91553475948d23efba1683b54b1e0f637fae57370f8bc19955659c7b8793ecf,
  0x540fca0570720eb7a910bdeff21ce2189d7c00c8471ddc07bb5b5c8aa1ad89e1,
  0xc4b65c3551c83c6932f22fb19ac4550b6d8abce0cf641cfc0612914f1b46c912,
  0xb1170d0754beeaa4ee7eb44f2fdbd1b8be100596c8da9541536e6114e4189cfc,
  0x45cac579389af5ca93f548c2cab0a32c267d7103ef9f83a3beb789dbbc4ea209,
  0x2b75c5d185461341a8e0425b0d01cd1ed6f9074a4c2732f765ceb6cde220e757,
  0x114dcbb43b155057470868184fcc3f5f1af87374102c1031afbacb099d1967bd,
  0x1b98494373c20b8a7ebe95d47cd1daf2f27e722d27743cd95f98e9b5ad62427d,
  0x93d03eea25d1d8164ac6fab0688e4ccd036e9886f63c99338f1d0f5ec26521a6,
  0x8615908bcc4c8f29c227b5ba376faeebb62b24404a1be96dd4e745e4412a26a,
  0xf6a1ef6a7d3b254564d85cc844957794c7a967d45d82bbcaebe0d315a9cb279b,
  0x2b8dd348e0f767aed188547deb3f0136611e5aedd44a4fd429bfb1bdc678fcbe,
  0xfcd653bc999d276bbd9b522fb9f15d0b5154a018eba8e309fad25fa87d091580,
  0xb36394657868f06e04921932aaf82150946592914b67e34f29c79a4cedb3baf2,
  0xfbdf21da0bb9add0ba835279ffb6a358ca9a2b49a6e6b16d6cbfcd64bf69402c,
  0xedcce16aeb59e5adbb90914a9c9871a30cf66f05d413a46d23436782d086ca23,
  0x6608d757c7d36be35cea7b8a1ac11de9f9ce20dec18c4b44130e23fa572004a9,
  0xd5d4c6699513858fa955e448a10873d4d03a1ed309668f2f70c7a48f09b95bb9,
  0x16cac53fc290514659f1b7e5d5fbfdc3619c9d98f6f33bcb72015cf80ce336f4,
  0xc6e96787aedc5c4014690cfa36c329edce2129cd34ae493a5f340fcb5be19401,
  0xf8d2e75e66d53d83d457241f6a9863acb8052dcca0e133957ad9f632881e960f,
  0x9a5144da7f765fd837fdeee585fdcd8e33b2e33e1d4e5bdb23336699f63c8e45,
  0xa2b5d83a373c7ac2f31d2e03157bc387d317530723ab526a0c7840cbc3b121ad,
  0x3ff3ff3e9168fd710b50e1ab78926eefea7c37e6ee511ddf47b3063d7d254e4c,
  0x6021ef776e85bae8cbbf60dca92d32de4c77464d80c69c232c56cd0f48e4587d,
  0x601a299a0bbe06e1f308dc3d84a999f1a5130e508b35bcf2e3521a7cbf37c2a1,
  0x9b121812c345eb87b00b42e8b528bff65b1dcb68d8e77159de3439ebd3e4fcef,
  0x57f094f242a87015d5d85d95fc59359a7f205f341a367e507eb2f053805555c,
  0xcc92a4a3521dba282be3af695f4ca02d5d3d62bea3d0c9822e990fa0b86f494d,
  0x4fb453c7ad02c0265e7ab91abe659d07dc029224f1676fbdd8082fb069d5ee7,
  0x3910377fe08e48a3b93a0637f3af87f70f186a740aaa16b590b632d403b4513c,
  0xf2f7c89f1379cf057f5505759890b7225f1e003e1d3a7dafcafe235cd7fe7ef0,
  0x7818fb0f5b0ff11131bf6c475e29db1e8f150b98011d5fe5a252ed34d09cd4f,
  0xce8349b10acdabca50fa45528d32be3a9d4b489eae71f97d0441124ba35b2f58,
  0x183c124cf3d64e0b4cc84cfe14a77c57c14a5bff8ad78a52ade4816bccf327ac,
  0x688b6947de87d7e9b7fa51c1fe79c53bc3b545955dbab8034dbeffc02ebf0904,
  0x2c55c09810b2f5487ba82a958b9e6a9add87232f5cca256a2f5b386d0a416de5,
  0x1d8ee30bc2f880171221c7c14b1db1128f0aa8baea9011fdf75f6b5cec404580,
  0x33a1c005e4ccc286de5eb81978735ad0ba5487bfcecce199d18562b8cfa0694f,
  0x1271254993f074aad4699ceb082644c30388cd9f71f314e3dca75eca4474cbe5,
  0x516fabbf03d782933e550b09e8493d84b59cd5fcb429c2a91c493fa07fa74dcd,
  0x140c9813f8542a714c636e19b68da5af00424fa384fbe6eee6d4233d77a1930d,
  0x3564fd80ea4578c100ef11ecb78fd7dd271441e275aceb6bbea7da1e4eabfb2c,
  0x734c58deea6bd24b9a888e9f318a8efeb86eb7a249850b0faf64e36a267033fd,
  0xaea3b00f90869cf727e74ceb6b5c8a44eb222e5b91776dec30765a1ca7975996,
  0xc119ec86604ac1de623b0619adb26e6bbbe041e1a6089bafc41171736f6127bd,
  0xfc1385169b03eb72aa69f6bbf9bfebccddf1854fc56579d8cc48029f3903aa23,
  0xace055588e22fd2647bf1babcb2b82f5771b06055d169793409b2e169eb1bbfa,
  0xb604b97729a3c214b4d6164f3e9d573e759a7ec7f27f379201731918ee54abd6,
  0x1a825a9fac612b548d7ff0d4f4fb947043461d4569c23fa41a22142b7cc54bcf,
  0xf418b6ce5a857da31c60396a2c51aa0b4566a69758dd856d39da610606e0e771,
  0xa170e108788db093ebb82aacdf6ca80db56437fb2b753802dfca68648b28c5af,
  0x460de3bdbe1cb3ac3413838181a6096f861fffe004c85acade5b821c4a3d86e8,
  0x6c132e0c5374c91613865b737d9739bcae7f8689b0bbd6a05b7b491f49ccffcc,
  0x2]

/-- Each entry is the square of the one before. -/
def squares : List Nat → Bool
  | a :: b :: l => mulP 256 a a == b && squares (b :: l)
  | _ => true

set_option maxRecDepth 100000 in
theorem table_squares : squares table = true := by decide +kernel

theorem table_start : table[0]? = some 2 := by decide +kernel
theorem table_128 : table[128]? = some 0x39abdc4529b1661ca9582618e03fc9aad5a61266f0c9392c180ec6d33cfd0aba := by decide +kernel
theorem table_256 : table[256]? = some 2 := by decide +kernel

set_option maxRecDepth 100000 in
theorem power_3 : powP table ((2 ^ 256 - 1) / 3) = 0x54d6a48aae687fb68b7f13ce6607e276afab085596734aa97762f281b25ed783 := by decide +kernel

theorem inverse_3 : mulP 256 0x54d6a48aae687fb68b7f13ce6607e276afab085596734aa97762f281b25ed783 (0x54d6a48aae687fb68b7f13ce6607e276afab085596734aa97762f281b25ed783 ^^^ 1) = 1 := by decide +kernel

set_option maxRecDepth 100000 in
theorem power_5 : powP table ((2 ^ 256 - 1) / 5) = 0x6ec9cd129895d052616a564f042be5956a2075f39c3d432635ad7e8b44cbcdcd := by decide +kernel

theorem inverse_5 : mulP 256 0x9b17f5767b72e1a3c673d4c3e369b20235e972559753b37fdedc95dc103781f (0x6ec9cd129895d052616a564f042be5956a2075f39c3d432635ad7e8b44cbcdcd ^^^ 1) = 1 := by decide +kernel

set_option maxRecDepth 100000 in
theorem power_17 : powP table ((2 ^ 256 - 1) / 17) = 0x90269340057d7ee7eb21d977cf20f3dc38da22c5375471f2a0a830a7ef328ee9 := by decide +kernel

theorem inverse_17 : mulP 256 0xf4646ef27133b2d46393a4c40448d75b8f3adcab0a20793ef8bb26f5b81e7ecf (0x90269340057d7ee7eb21d977cf20f3dc38da22c5375471f2a0a830a7ef328ee9 ^^^ 1) = 1 := by decide +kernel

set_option maxRecDepth 100000 in
theorem power_257 : powP table ((2 ^ 256 - 1) / 257) = 0xfdb7756e6ac858fd6732aab4918d7df125c6c922eca444e8a2a0bb43afdb4f25 := by decide +kernel

theorem inverse_257 : mulP 256 0x618e9a9a97b4105e9870464ee696824b10a336ec58f59159b1165cabfe23cd76 (0xfdb7756e6ac858fd6732aab4918d7df125c6c922eca444e8a2a0bb43afdb4f25 ^^^ 1) = 1 := by decide +kernel

set_option maxRecDepth 100000 in
theorem power_641 : powP table ((2 ^ 256 - 1) / 641) = 0x581da52f86332ea661bcbb2b555ce0f02e9815440881e2bf78b880b86010e91c := by decide +kernel

theorem inverse_641 : mulP 256 0x56ced9120f236c15fdd49ed161d46abc0269afa58693de573c5dcc0645c4b0ff (0x581da52f86332ea661bcbb2b555ce0f02e9815440881e2bf78b880b86010e91c ^^^ 1) = 1 := by decide +kernel

set_option maxRecDepth 100000 in
theorem power_65537 : powP table ((2 ^ 256 - 1) / 65537) = 0xb676779c1ec18ee71ca799db6f5623d0f6f65e508c7029e05dafe16943ddddf8 := by decide +kernel

theorem inverse_65537 : mulP 256 0x5b7382b05dc5a20686e618650a39fab806017ce589bb2d98cf9b5a05139e793f (0xb676779c1ec18ee71ca799db6f5623d0f6f65e508c7029e05dafe16943ddddf8 ^^^ 1) = 1 := by decide +kernel

set_option maxRecDepth 100000 in
theorem power_274177 : powP table ((2 ^ 256 - 1) / 274177) = 0xe5a556c3c9e400e198126a39102fcc20f4c3663facb3240e1d771075d04e50d8 := by decide +kernel

theorem inverse_274177 : mulP 256 0x24d5461cfd63732f63b6b60adc840b312db07c0c8c7b46872d3955d70f9e6ac5 (0xe5a556c3c9e400e198126a39102fcc20f4c3663facb3240e1d771075d04e50d8 ^^^ 1) = 1 := by decide +kernel

set_option maxRecDepth 100000 in
theorem power_6700417 : powP table ((2 ^ 256 - 1) / 6700417) = 0xc6450b829be1a76226abe4270fff410101352a4c92d48efe19b67cdd3c86a7ed := by decide +kernel

theorem inverse_6700417 : mulP 256 0x1c10854fe79f6066b6b1fe5c68be2282e701b5777ef01c8fd5b0ea5458d18c36 (0xc6450b829be1a76226abe4270fff410101352a4c92d48efe19b67cdd3c86a7ed ^^^ 1) = 1 := by decide +kernel

set_option maxRecDepth 100000 in
theorem power_67280421310721 : powP table ((2 ^ 256 - 1) / 67280421310721) = 0x2fbf5d361feea8bd9fc94ae35bf3f6a76338c186cf6f576a067bea15d2a4c5d4 := by decide +kernel

theorem inverse_67280421310721 : mulP 256 0xc3bc6f4888606c0bfb4a6ce96aa43d28506b49c1c962aba2928641dd24af8cf8 (0x2fbf5d361feea8bd9fc94ae35bf3f6a76338c186cf6f576a067bea15d2a4c5d4 ^^^ 1) = 1 := by decide +kernel

set_option maxRecDepth 100000 in
theorem power_59649589127497217 : powP table ((2 ^ 256 - 1) / 59649589127497217) = 0x9ca884016a9ae0ccc7d474a8d84519140837e437505a90a217cc3ecd3bb53a6 := by decide +kernel

theorem inverse_59649589127497217 : mulP 256 0x2b0b5d0e0d5dcbfd343a0c7c13920e58856efc82f8b6f3e99a6368bb225afce6 (0x9ca884016a9ae0ccc7d474a8d84519140837e437505a90a217cc3ecd3bb53a6 ^^^ 1) = 1 := by decide +kernel

set_option maxRecDepth 100000 in
theorem power_5704689200685129054721 : powP table ((2 ^ 256 - 1) / 5704689200685129054721) = 0x3d5cb71a110f671392e965f9e4b713e93b04d92f3f0eaf518cdb42c9fdb2914c := by decide +kernel

theorem inverse_5704689200685129054721 : mulP 256 0xca8fcba3c0dd08871d4e3f7290e3e7fb8436109b90a55fd4bc6fe9d31b611e5 (0x3d5cb71a110f671392e965f9e4b713e93b04d92f3f0eaf518cdb42c9fdb2914c ^^^ 1) = 1 := by decide +kernel

end Plc.Xo
